import Verif.Model.Tools
import Verif.Lemmas.Taylor
import Verif.Lemmas.Arith
import Verif.Lemmas.Positive
import Mathlib.Analysis.Real.Pi.Bounds
import Mathlib.Analysis.Complex.ExponentialBounds

/-! Taylor helpers: C43. -/

set_option linter.unusedSectionVars false

namespace Verif
open Tools Finset Polynomial
namespace Tools

variable {V D : Type} [DecidableEq V] [AddCommGroup D] [DecidableEq D] [Module ℝ D]

theorem lit_good (c : ℝ) : (lit c : PyVal V ℝ D).Good := by simp [lit, PyVal.Good, UnitOK, unitScale]

theorem lit_phys (c : ℝ) (pt : V → ℝ) : (lit c : PyVal V ℝ D).phys pt = c := by simp [lit, PyVal.phys, unitScale]

theorem pow_nat {se : Bool} {a r : PyVal V ℝ D} {z : ℤ} {n : ℕ} (hz : z = n) (ha : a.Good) (h : PyVal.pow se a (.int z) = .ok r) :
    r.Good ∧ ∀ pt, (∀ v, 0 < pt v) → r.phys pt = a.phys pt ^ n := by
  obtain ⟨h1, h2⟩ := pyPow_ok ha h
  refine ⟨h1, fun pt hpt => ?_⟩
  rw [h2 pt hpt, hz]
  simp [PyExpo.toK]

theorem fd_exp {se : Bool} {p : PyVal V ℝ D} : ∀ (n : ℕ) {r : PyVal V ℝ D} {fd : ℝ}, teExpLoop se p n = .ok (r, fd) → p.Good →
    fd = n.factorial ∧ r.Good ∧ ∀ pt, (∀ v, 0 < pt v) → r.phys pt = ∑ i ∈ range n, p.phys pt ^ (i + 1) / ((i + 1).factorial : ℝ)
  | 0, r, fd, h, _ => by
    cases h
    exact ⟨by simp, lit_good 0, fun pt _ => by simp [lit_phys]⟩
  | n + 1, r, fd, h, hp => by
    rw [teExpLoop] at h
    obtain ⟨⟨r0, fd0⟩, h0, h⟩ := except_bind_ok h
    obtain ⟨hfd, hg, hv⟩ := fd_exp n h0 hp
    dsimp only at h
    obtain ⟨q, h1, h⟩ := except_bind_ok h
    obtain ⟨t, h2, h⟩ := except_bind_ok h
    obtain ⟨s, h3, h⟩ := except_bind_ok h
    cases h
    obtain ⟨g1, e1⟩ := pow_nat (n := n + 1) (by push_cast; ring) hp h1
    obtain ⟨g2, e2⟩ := pyDiv_ok g1 (lit_good _) h2
    obtain ⟨g3, e3⟩ := pyAdd_ok hg g2 h3
    have hf : fd0 * ((n + 1 : ℕ) : ℝ) = ((n + 1).factorial : ℝ) := by
      rw [hfd, Nat.factorial_succ]; push_cast; ring
    refine ⟨hf, g3, fun pt hpt => ?_⟩
    rw [e3 pt, hv pt hpt, e2 pt hpt, e1 pt hpt, lit_phys, hf, sum_range_succ]

theorem fd_step (n : ℕ) : ((2 * n).factorial : ℝ) * ((2 * ((n + 1 : ℕ) : ℝ)) * (2 * ((n + 1 : ℕ) : ℝ) - 1)) = ((2 * (n + 1)).factorial : ℝ) := by
  rw [show 2 * (n + 1) = 2 * n + 1 + 1 by ring, Nat.factorial_succ, Nat.factorial_succ]
  push_cast
  ring

/-- Coefficients of the secant, from a table of Euler numbers. -/
def secCoeff {K : Type} [Field K] (E : List K) (j : ℕ) : K := if j = 0 then 1 else E.getD (j - 1) 0 / ((2 * j).factorial : K)

/-- Coefficients of the tangent, from a table of Bernoulli numbers. -/
def tanCoeff {K : Type} [Field K] (B : List K) (j : ℕ) : K :=
  (-1) ^ j * 2 ^ (2 * (j + 1)) * (2 ^ (2 * (j + 1)) - 1) * B.getD j 0 / ((2 * (j + 1)).factorial : K)

theorem fd_sec {se : Bool} {E : List ℝ} {p : PyVal V ℝ D} : ∀ (n : ℕ) {r : PyVal V ℝ D} {fd : ℝ}, teSecLoop se E p n = .ok (r, fd) → p.Good →
    fd = (2 * n).factorial ∧ r.Good ∧ ∀ pt, (∀ v, 0 < pt v) → r.phys pt = ∑ j ∈ range (n + 1), secCoeff E j * (p.phys pt ^ 2) ^ j
  | 0, r, fd, h, _ => by
    cases h
    exact ⟨by simp, lit_good 1, fun pt _ => by simp [lit_phys, secCoeff]⟩
  | n + 1, r, fd, h, hp => by
    rw [teSecLoop] at h
    obtain ⟨⟨r0, fd0⟩, h0, h⟩ := except_bind_ok h
    obtain ⟨hfd, hg, hv⟩ := fd_sec n h0 hp
    dsimp only at h
    obtain ⟨q, h1, h⟩ := except_bind_ok h
    cases he : E[n]? with
    | none => rw [he] at h; cases h
    | some e =>
      rw [he] at h
      dsimp only at h
      obtain ⟨t, h2, h⟩ := except_bind_ok h
      obtain ⟨u, h3, h⟩ := except_bind_ok h
      obtain ⟨s, h4, h⟩ := except_bind_ok h
      cases h
      obtain ⟨g1, e1⟩ := pow_nat (n := 2 * (n + 1)) (by push_cast; ring) hp h1
      obtain ⟨g2, e2⟩ := pyMul_ok g1 (lit_good _) h2
      obtain ⟨g3, e3⟩ := pyDiv_ok g2 (lit_good _) h3
      obtain ⟨g4, e4⟩ := pyAdd_ok hg g3 h4
      have hf := fd_step n
      rw [← hfd] at hf
      refine ⟨hf, g4, fun pt hpt => ?_⟩
      rw [e4 pt, hv pt hpt, e3 pt hpt, e2 pt hpt, e1 pt hpt, lit_phys, lit_phys, hf, sum_range_succ _ (n + 1)]
      congr 1
      simp only [secCoeff, Nat.add_eq_zero_iff, one_ne_zero, and_false, if_false, Nat.add_sub_cancel, List.getD_eq_getElem?_getD, he, Option.getD_some]
      rw [pow_mul]
      ring

theorem fd_tan {se : Bool} {B : List ℝ} {p : PyVal V ℝ D} : ∀ (n : ℕ) {r : PyVal V ℝ D} {fd : ℝ}, teTanLoop se B p n = .ok (r, fd) → p.Good →
    fd = (2 * n).factorial ∧ r.Good ∧ ∀ pt, (∀ v, 0 < pt v) → r.phys pt = p.phys pt * ∑ j ∈ range n, tanCoeff B j * (p.phys pt ^ 2) ^ j
  | 0, r, fd, h, _ => by
    cases h
    exact ⟨by simp, lit_good 0, fun pt _ => by simp [lit_phys]⟩
  | n + 1, r, fd, h, hp => by
    rw [teTanLoop] at h
    obtain ⟨⟨r0, fd0⟩, h0, h⟩ := except_bind_ok h
    obtain ⟨hfd, hg, hv⟩ := fd_tan n h0 hp
    dsimp only at h
    cases he : B[n]? with
    | none => rw [he] at h; cases h
    | some b =>
      rw [he] at h
      dsimp only at h
      obtain ⟨q, h1, h⟩ := except_bind_ok h
      obtain ⟨t, h2, h⟩ := except_bind_ok h
      obtain ⟨s, h3, h⟩ := except_bind_ok h
      cases h
      obtain ⟨g1, e1⟩ := pow_nat (n := 2 * n + 1) (by push_cast; ring) hp h1
      obtain ⟨g2, e2⟩ := pyMul_ok (lit_good _) g1 h2
      obtain ⟨g3, e3⟩ := pyAdd_ok hg g2 h3
      have hf := fd_step n
      rw [← hfd] at hf
      refine ⟨hf, g3, fun pt hpt => ?_⟩
      rw [e3 pt, hv pt hpt, e2 pt hpt, e1 pt hpt, lit_phys, hf, sum_range_succ, mul_add]
      simp only [tanCoeff, List.getD_eq_getElem?_getD, he, Option.getD_some]
      rw [show p.phys pt ^ (2 * n + 1) = p.phys pt * (p.phys pt ^ 2) ^ n by ring]
      ring_nf

theorem sec_conv_rat : ∀ k < 13, ∑ ij ∈ antidiagonal k, secCoeff (eulerTable : List ℚ) ij.1 * ((-1) ^ ij.2 / ((2 * ij.2).factorial : ℚ)) =
    if k = 0 then 1 else 0 := by decide +kernel

theorem tan_conv_rat : ∀ k < 15, ∑ ij ∈ antidiagonal k, tanCoeff (bernoulliTable : List ℚ) ij.1 * ((-1) ^ ij.2 / ((2 * ij.2).factorial : ℚ)) =
    (-1) ^ k / ((2 * k + 1).factorial : ℚ) := by decide +kernel

theorem euler_cast : (eulerTable : List ℝ) = (eulerTable : List ℚ).map (fun q : ℚ => (q : ℝ)) := by simp [eulerTable]

theorem bernoulli_cast : (bernoulliTable : List ℝ) = (bernoulliTable : List ℚ).map (fun q : ℚ => (q : ℝ)) := by simp [bernoulliTable]

theorem getD_cast (l : List ℚ) (j : ℕ) : (l.map (fun q : ℚ => (q : ℝ))).getD j 0 = ((l.getD j 0 : ℚ) : ℝ) := by
  simp only [List.getD_eq_getElem?_getD, List.getElem?_map]
  cases l[j]? <;> simp

theorem sec_cast (j : ℕ) : secCoeff (eulerTable : List ℝ) j = ((secCoeff (eulerTable : List ℚ) j : ℚ) : ℝ) := by
  unfold secCoeff
  rw [euler_cast, getD_cast]
  split_ifs <;> push_cast <;> rfl

theorem tan_cast (j : ℕ) : tanCoeff (bernoulliTable : List ℝ) j = ((tanCoeff (bernoulliTable : List ℚ) j : ℚ) : ℝ) := by
  unfold tanCoeff
  rw [bernoulli_cast, getD_cast]
  push_cast
  rfl

theorem sec_conv (k : ℕ) (hk : k < 13) : ∑ ij ∈ antidiagonal k, secCoeff (eulerTable : List ℝ) ij.1 * ((-1) ^ ij.2 / ((2 * ij.2).factorial : ℝ)) =
    if k = 0 then 1 else 0 := by
  have h := congrArg (fun q : ℚ => (q : ℝ)) (sec_conv_rat k hk)
  simp only [sec_cast]
  push_cast at h
  rw [h]
  split_ifs <;> simp

theorem tan_conv (k : ℕ) (hk : k < 15) : ∑ ij ∈ antidiagonal k, tanCoeff (bernoulliTable : List ℝ) ij.1 * ((-1) ^ ij.2 / ((2 * ij.2).factorial : ℝ)) =
    (-1) ^ k / ((2 * k + 1).factorial : ℝ) := by
  have h := congrArg (fun q : ℚ => (q : ℝ)) (tan_conv_rat k hk)
  simp only [tan_cast]
  push_cast at h
  rw [h]

/-! ### The helpers do not raise on posynomials -/

/-- A posynomial without units, with at least one term. -/
def IsPosy (r : PyVal V ℝ D) : Prop := ∃ n, r = .nom n ∧ n.AllPos ∧ n.hmap.units = none ∧ n.ClassTrue ∧ n.hmap.terms ≠ []

theorem mkSig_posy {se rp : Bool} {ts : PyDict (HV V ℝ) ℝ} (h : ∀ t ∈ ts, 0 < t.2) (hne : ts ≠ []) :
    ∃ n : Nomial V ℝ D, mkSig se rp ⟨ts, none⟩ = .ok n ∧ IsPosy (.nom n) := by
  have h1 : (⟨ts, none⟩ : NMap V ℝ D).anyNonpositive = false := by
    rw [Bool.eq_false_iff]
    intro hh
    simp only [NMap.anyNonpositive, List.any_eq_true, decide_eq_true_eq] at hh
    obtain ⟨t, ht, h0⟩ := hh
    exact absurd (h t ht) (not_lt.2 h0)
  have hex : ∃ n : Nomial V ℝ D, mkSig se rp ⟨ts, none⟩ = .ok n ∧ n.hmap = ⟨ts, none⟩ := by
    unfold mkSig
    rw [h1]
    by_cases hl : ts.length = 1
    · exact ⟨⟨⟨ts, none⟩, .monomial⟩, by simp [hl], rfl⟩
    · exact ⟨⟨⟨ts, none⟩, .posynomial⟩, by simp [hl], rfl⟩
  obtain ⟨n, hn, hm⟩ := hex
  refine ⟨n, hn, n, rfl, ?_, by rw [hm], mkSig_classTrue hn, by rw [hm]; exact hne⟩
  intro t ht
  rw [hm] at ht
  exact h t ht

theorem ne_nil_of_val {ts : PyDict (HV V ℝ) ℝ} (h : 0 < termsVal (fun _ => 1) ts) : ts ≠ [] := by
  rintro rfl
  simp [termsVal] at h

theorem val_pos {ts : PyDict (HV V ℝ) ℝ} (h : ∀ t ∈ ts, 0 < t.2) (hne : ts ≠ []) : 0 < termsVal (fun _ => 1) ts := by
  unfold termsVal
  apply List.sum_pos
  · intro x hx
    obtain ⟨t, ht, rfl⟩ := List.mem_map.1 hx
    exact mul_pos (h t ht) (monVal_pos (fun _ => one_pos) _)
  · simpa using hne

theorem mul_posy (se : Bool) {a b : Nomial V ℝ D} (ha : IsPosy (.nom a)) (hb : IsPosy (.nom b)) : ∃ n, a.mul se b = .ok n ∧ IsPosy (.nom n) := by
  obtain ⟨_, ea, pa, ua, _, na⟩ := ha
  obtain ⟨_, eb, pb, ub, _, nb⟩ := hb
  cases ea; cases eb
  unfold Nomial.mul
  rw [ua, ub]
  refine mkSig_posy (mulTerms_pos pa pb) (ne_nil_of_val ?_)
  rw [termsVal_mulTerms (fun _ => one_pos)]
  exact mul_pos (val_pos pa na) (val_pos pb nb)

theorem mulNum_posy (se : Bool) {a : Nomial V ℝ D} (ha : IsPosy (.nom a)) {c : ℝ} (hc : 0 < c) :
    ∃ r, a.mulNum se ⟨c, none⟩ = .ok r ∧ IsPosy r := by
  obtain ⟨_, ea, pa, ua, _, na⟩ := ha
  cases ea
  have hp : ∀ t ∈ dictScale a.hmap.terms c, 0 < t.2 := by
    intro t ht
    obtain ⟨s, hs, rfl⟩ := List.mem_map.1 ht
    exact mul_pos (pa s hs) hc
  obtain ⟨n, h1, h2⟩ := mkSig_posy (D := D) (se := se) (rp := true) hp (by simpa [dictScale] using na)
  refine ⟨.nom n, ?_, h2⟩
  unfold Nomial.mulNum
  rw [if_neg hc.ne', ua]
  show (do let n ← mkSig se true ⟨dictScale a.hmap.terms c, none⟩; pure (PyVal.nom n)) = _
  rw [h1]; rfl

theorem add_posy (se : Bool) {a b : PyVal V ℝ D} (ha : IsPosy a ∨ ∃ c, 0 ≤ c ∧ a = lit c) (hb : IsPosy b) :
    ∃ r, PyVal.add se a b = .ok r ∧ IsPosy r := by
  obtain ⟨nb, rfl, pb, ub, cb, hnb⟩ := hb
  rcases ha with ⟨na, rfl, pa, ua, ca, hna⟩ | ⟨c, hc, rfl⟩
  · obtain ⟨n, h1, h2⟩ := mkSig_posy (D := D) (se := se) (rp := true) (dictAdd_pos pa pb) (ne_nil_of_val (by
      rw [termsVal_dictAdd]
      exact add_pos (val_pos pa hna) (val_pos pb hnb)))
    refine ⟨.nom n, ?_, h2⟩
    have he : nb.hmap.terms.isEmpty = false := by simpa using hnb
    simp only [PyVal.add, Nomial.add, he, NMap.add, ua, ub, bind, Except.bind, pure, Except.pure, if_true, h1, Bool.false_eq_true, if_false]
  · by_cases h0 : c = 0
    · obtain ⟨n, h1, h2⟩ := mkSig_posy (D := D) (se := se) (rp := true) pb hnb
      refine ⟨.nom n, ?_, h2⟩
      have : nb.hmap = ⟨nb.hmap.terms, none⟩ := by rw [← ub]
      simp only [lit, PyVal.add, Nomial.addNum, h0, if_true]
      rw [this, h1]; rfl
    · have hc : 0 < c := lt_of_le_of_ne hc (Ne.symm h0)
      have hp : ∀ t ∈ ([(HV.empty, c)] : PyDict (HV V ℝ) ℝ), 0 < t.2 := by simpa using hc
      obtain ⟨n, h1, h2⟩ := mkSig_posy (D := D) (se := se) (rp := true) (dictAdd_pos pb hp) (ne_nil_of_val (by
        rw [termsVal_dictAdd]
        exact add_pos (val_pos pb hnb) (val_pos hp (by simp))))
      refine ⟨.nom n, ?_, h2⟩
      simp only [lit, PyVal.add, Nomial.addNum, h0, if_false, NMap.add, numMap, ub, if_true, bind, Except.bind, h1, pure, Except.pure]

theorem powLoop_posy (se : Bool) {a : Nomial V ℝ D} (ha : IsPosy (.nom a)) (n : ℕ) : ∃ r, a.powLoop se (n + 1) = .ok r ∧ IsPosy r := by
  induction n with
  | zero =>
    obtain ⟨r, h1, h2⟩ := mulNum_posy se ha one_pos
    exact ⟨r, by simpa [Nomial.powLoop, bind, Except.bind] using h1, h2⟩
  | succ n ih =>
    obtain ⟨r, h1, m, rfl, h2⟩ := ih
    obtain ⟨k, h3, h4⟩ := mul_posy se (a := m) (b := a) ⟨m, rfl, h2⟩ ha
    refine ⟨.nom k, ?_, h4⟩
    rw [Nomial.powLoop, h1]
    simp [bind, Except.bind, h3, pure, Except.pure]

theorem pow_posy (se : Bool) {a : PyVal V ℝ D} (ha : IsPosy a) {z : ℤ} {n : ℕ} (hz : z = (n + 1 : ℕ)) :
    ∃ r, PyVal.pow se a (.int z) = .ok r ∧ IsPosy r := by
  obtain ⟨m, rfl, pa, ua, ca, hne⟩ := ha
  subst hz
  unfold PyVal.pow
  dsimp only
  split_ifs with hm
  · obtain ⟨e, c, ht, hc⟩ := ca.1.1 hm
    obtain ⟨k, h1, h2⟩ := mkSig_posy (D := D) (se := se) (rp := true) (ts := [(e.scale ((n + 1 : ℕ) : ℝ), pw c ((n + 1 : ℕ) : ℝ))])
      (by simpa [show ∀ x : ℝ, pw c x = c ^ x from fun _ => rfl] using Real.rpow_pos_of_pos hc _) (by simp)
    refine ⟨.nom k, ?_, h2⟩
    have hx : (PyExpo.int ((n + 1 : ℕ) : ℤ) : PyExpo ℝ).toK = ((n + 1 : ℕ) : ℝ) := by simp [PyExpo.toK]
    have hx0 : ((n + 1 : ℕ) : ℝ) ≠ 0 := by positivity
    unfold Nomial.monoPow
    rw [ht, hx]
    dsimp only
    rw [if_pos hx0, if_pos hx0, ua]
    show (do let k ← mkSig se true ⟨_, none⟩; pure (PyVal.nom k)) = _
    rw [h1]; rfl
  · obtain ⟨r, h1, k, rfl, h2⟩ := powLoop_posy se (a := m) ⟨m, rfl, pa, ua, ca, hne⟩ n
    refine ⟨.nom k, ?_, k, rfl, h2⟩
    unfold Nomial.sigPow
    dsimp only
    rw [if_neg (by omega), show ((n + 1 : ℕ) : ℤ).toNat = n + 1 by simp, h1]
    rfl

theorem div_posy (se : Bool) {a : PyVal V ℝ D} (ha : IsPosy a) {c : ℝ} (hc : 0 < c) : ∃ r, PyVal.div se a (lit c) = .ok r ∧ IsPosy r := by
  obtain ⟨m, rfl, h⟩ := ha
  obtain ⟨r, h1, h2⟩ := mulNum_posy se (a := m) ⟨m, rfl, h⟩ (inv_pos.2 hc)
  refine ⟨r, ?_, h2⟩
  simp only [lit, PyVal.div, hc.ne', if_false, Option.map_none]
  exact h1

theorem teExpLoop_posy (se : Bool) {p : PyVal V ℝ D} (hp : IsPosy p) : ∀ n, ∃ r, teExpLoop se p n = .ok (r, (n.factorial : ℝ)) ∧
    ((n = 0 ∧ r = lit 0) ∨ IsPosy r)
  | 0 => ⟨lit 0, by simp [teExpLoop], Or.inl ⟨rfl, rfl⟩⟩
  | n + 1 => by
    obtain ⟨r, h, hr⟩ := teExpLoop_posy se hp n
    obtain ⟨q, h1, g1⟩ := pow_posy se hp (z := ((n : ℤ) + 1)) (n := n) (by simp)
    have hf : (n.factorial : ℝ) * ((n + 1 : ℕ) : ℝ) = ((n + 1).factorial : ℝ) := by rw [Nat.factorial_succ]; push_cast; ring
    obtain ⟨t, h2, g2⟩ := div_posy se g1 (c := ((n + 1).factorial : ℝ)) (by positivity)
    obtain ⟨s, h3, g3⟩ := add_posy se (a := r) (b := t) (by
      rcases hr with ⟨_, rfl⟩ | hr
      · exact Or.inr ⟨0, le_rfl, rfl⟩
      · exact Or.inl hr) g2
    refine ⟨s, ?_, Or.inr g3⟩
    rw [teExpLoop, h]
    simp only [bind, Except.bind, pure, Except.pure]
    rw [hf, show (((n + 1 : ℕ) : ℤ)) = (n : ℤ) + 1 by simp, h1]
    dsimp only
    rw [h2]
    dsimp only
    rw [h3]

theorem teSecLoop_posy (se : Bool) {E : List ℝ} (hE : ∀ e ∈ E, 0 < e) {p : PyVal V ℝ D} (hp : IsPosy p) : ∀ n ≤ E.length, ∃ r,
    teSecLoop se E p n = .ok (r, ((2 * n).factorial : ℝ)) ∧ (r = lit 1 ∨ IsPosy r)
  | 0, _ => ⟨lit 1, by simp [teSecLoop], Or.inl rfl⟩
  | n + 1, hn => by
    obtain ⟨r, h, hr⟩ := teSecLoop_posy se hE hp n (by omega)
    obtain ⟨q, h1, g1⟩ := pow_posy se hp (z := (2 * ((n + 1 : ℕ) : ℤ))) (n := 2 * n + 1) (by push_cast; ring)
    have he : E[n]? = some E[n] := List.getElem?_eq_getElem (by omega)
    obtain ⟨m, rfl, g1'⟩ := g1
    obtain ⟨t, h2, g2⟩ := mulNum_posy se (a := m) ⟨m, rfl, g1'⟩ (hE _ (List.getElem_mem (by omega : n < E.length)))
    obtain ⟨u, h3, g3⟩ := div_posy se g2 (c := ((2 * (n + 1)).factorial : ℝ)) (by positivity)
    obtain ⟨s, h4, g4⟩ := add_posy se (a := r) (b := u) (by
      rcases hr with rfl | hr
      · exact Or.inr ⟨1, zero_le_one, rfl⟩
      · exact Or.inl hr) g3
    refine ⟨s, ?_, Or.inr g4⟩
    rw [teSecLoop, h]
    simp only [bind, Except.bind, pure, Except.pure]
    rw [fd_step, h1]
    dsimp only
    rw [he]
    dsimp only
    rw [show PyVal.mul se (.nom m) (lit E[n]) = m.mulNum se ⟨E[n], none⟩ from rfl, h2]
    dsimp only
    rw [h3]
    dsimp only
    rw [h4]

theorem teTanLoop_posy (se : Bool) {B : List ℝ} (hB : ∀ n, n < B.length → 0 < (-1) ^ n * B.getD n 0) {p : PyVal V ℝ D} (hp : IsPosy p) :
    ∀ n ≤ B.length, ∃ r, teTanLoop se B p n = .ok (r, ((2 * n).factorial : ℝ)) ∧ (r = lit 0 ∨ IsPosy r)
  | 0, _ => ⟨lit 0, by simp [teTanLoop], Or.inl rfl⟩
  | n + 1, hn => by
    obtain ⟨r, h, hr⟩ := teTanLoop_posy se hB hp n (by omega)
    obtain ⟨q, h1, g1⟩ := pow_posy se hp (z := (2 * ((n + 1 : ℕ) : ℤ) - 1)) (n := 2 * n) (by push_cast; ring)
    have he : B[n]? = some B[n] := List.getElem?_eq_getElem (by omega)
    have hb := hB n (by omega)
    rw [List.getD_eq_getElem?_getD, he, Option.getD_some] at hb
    have hc : (0 : ℝ) < (-1) ^ n * 2 ^ (2 * (n + 1)) * (2 ^ (2 * (n + 1)) - 1) * B[n] / ((2 * (n + 1)).factorial : ℝ) := by
      have h2 : (0 : ℝ) < 2 ^ (2 * (n + 1)) - 1 := by
        have : (1 : ℝ) < 2 ^ (2 * (n + 1)) := one_lt_pow₀ (by norm_num) (by omega)
        linarith
      have : (-1 : ℝ) ^ n * 2 ^ (2 * (n + 1)) * (2 ^ (2 * (n + 1)) - 1) * B[n] / ((2 * (n + 1)).factorial : ℝ) =
          ((-1) ^ n * B[n]) * (2 ^ (2 * (n + 1)) * (2 ^ (2 * (n + 1)) - 1) / ((2 * (n + 1)).factorial : ℝ)) := by ring
      rw [this]
      exact mul_pos hb (by positivity)
    obtain ⟨m, rfl, g1'⟩ := g1
    obtain ⟨t, h2, g2⟩ := mulNum_posy se (a := m) ⟨m, rfl, g1'⟩ hc
    obtain ⟨s, h3, g3⟩ := add_posy se (a := r) (b := t) (by
      rcases hr with rfl | hr
      · exact Or.inr ⟨0, le_rfl, rfl⟩
      · exact Or.inl hr) g2
    refine ⟨s, ?_, Or.inr g3⟩
    rw [teTanLoop, h]
    simp only [bind, Except.bind, pure, Except.pure]
    rw [fd_step, he]
    dsimp only
    rw [h1]
    dsimp only
    rw [show ∀ c, PyVal.mul se (lit c) (.nom m) = m.mulNum se ⟨c, none⟩ from fun _ => rfl, h2]
    dsimp only
    rw [h3]

theorem eulers_small {n : ℕ} (hn : n ≤ 12) : eulers n = eulerTable := by
  unfold eulers
  rw [if_neg (by omega)]

theorem eulers_13 : eulers 13 = eulerTable ++ [eulerApprox 13] := by
  unfold eulers
  rw [if_pos (by norm_num)]
  simp

theorem euler_pos : ∀ e ∈ (eulerTable : List ℝ), 0 < e := by
  intro e he
  simp only [eulerTable, List.mem_cons, List.not_mem_nil, or_false] at he
  rcases he with rfl | rfl | rfl | rfl | rfl | rfl | rfl | rfl | rfl | rfl | rfl | rfl <;> norm_num

theorem eulers_pos (n : ℕ) : ∀ e ∈ eulers n, 0 < e := by
  intro e he
  unfold eulers at he
  split_ifs at he with h
  · rcases List.mem_append.1 he with he | he
    · exact euler_pos e he
    · obtain ⟨k, hk, rfl⟩ := List.mem_map.1 he
      have hk : 13 ≤ k := (List.mem_range'_1.1 hk).1
      have h1 : (0 : ℝ) < k := by exact_mod_cast (by omega : 0 < k)
      unfold eulerApprox
      have := Real.pi_pos
      positivity
  · exact euler_pos e he

theorem eulers_length (n : ℕ) : n ≤ (eulers n).length := by
  unfold eulers
  split_ifs with h
  · simp [eulerTable]; omega
  · simp [eulerTable]; omega

theorem bernoulli_sign : ∀ n, n < (bernoulliTable : List ℝ).length → (0 : ℝ) < (-1) ^ n * (bernoulliTable : List ℝ).getD n 0 := by
  intro n hn
  simp only [bernoulliTable, List.length_cons, List.length_nil] at hn
  rw [bernoulli_cast, getD_cast]
  have h : ∀ n < 15, (0 : ℚ) < (-1) ^ n * (bernoulliTable : List ℚ).getD n 0 := by decide +kernel
  exact_mod_cast h n (by omega)

theorem posy_good {p : PyVal V ℝ D} (h : IsPosy p) : p.Good := by
  obtain ⟨n, rfl, h1, h2, h3, h4⟩ := h
  exact ⟨by simp [h2, UnitOK, unitScale], h3⟩

/-- The thirteenth Euler number. -/
def euler13 : ℕ := 4087072509293123892361

theorem sec13_conv_rat : ∀ k < 14, ∑ ij ∈ antidiagonal k, secCoeff (eulerTable ++ [(euler13 : ℚ)]) ij.1 * ((-1) ^ ij.2 / ((2 * ij.2).factorial : ℚ)) =
    if k = 0 then 1 else 0 := by decide +kernel

theorem sec13_conv (k : ℕ) (hk : k < 14) : ∑ ij ∈ antidiagonal k, secCoeff (eulerTable ++ [(euler13 : ℝ)]) ij.1 * ((-1) ^ ij.2 / ((2 * ij.2).factorial : ℝ)) =
    if k = 0 then 1 else 0 := by
  have hc : ∀ j, secCoeff (eulerTable ++ [(euler13 : ℝ)]) j = ((secCoeff (eulerTable ++ [(euler13 : ℚ)]) j : ℚ) : ℝ) := by
    intro j
    unfold secCoeff
    rw [show (eulerTable ++ [(euler13 : ℝ)]) = (eulerTable ++ [(euler13 : ℚ)]).map (fun q : ℚ => (q : ℝ)) by rw [List.map_append, ← euler_cast]; simp,
      getD_cast]
    split_ifs <;> push_cast <;> rfl
  have h := congrArg (fun q : ℚ => (q : ℝ)) (sec13_conv_rat k hk)
  simp only [hc]
  push_cast at h
  rw [h]
  split_ifs <;> simp

theorem approx_lt : eulerApprox 13 < (euler13 : ℝ) := by
  have hp := Real.pi_gt_d6
  have he := Real.exp_one_gt_d9
  have h1 : Real.sqrt ((13 : ℕ) / Real.pi) ≤ 2.0343 := by
    rw [Real.sqrt_le_left (by norm_num)]
    rw [div_le_iff₀ (by linarith)]
    push_cast
    nlinarith
  have h2 : 4 * ((13 : ℕ) : ℝ) / (Real.pi * Real.exp 1) ≤ 52 / (3.141592 * 2.7182818283) := by
    have : (3.141592 * 2.7182818283 : ℝ) ≤ Real.pi * Real.exp 1 := mul_le_mul hp.le he.le (by norm_num) (by linarith)
    push_cast
    rw [show (4 * 13 : ℝ) = 52 by norm_num]
    exact div_le_div_of_nonneg_left (by norm_num) (by norm_num) this
  have h3 : (4 * ((13 : ℕ) : ℝ) / (Real.pi * Real.exp 1)) ^ (2 * 13) ≤ (52 / (3.141592 * 2.7182818283)) ^ (2 * 13) := by
    refine pow_le_pow_left₀ ?_ h2 _
    have : 0 < Real.pi := Real.pi_pos
    positivity
  have h4 : eulerApprox 13 ≤ 8 * 2.0343 * (52 / (3.141592 * 2.7182818283)) ^ (2 * 13) := by
    unfold eulerApprox
    refine mul_le_mul (by linarith) h3 ?_ (by norm_num)
    have : 0 < Real.pi := Real.pi_pos
    positivity
  refine lt_of_le_of_lt h4 ?_
  norm_num [euler13]

end Tools

variable {V D : Type} [DecidableEq V] [AddCommGroup D] [DecidableEq D] [Module ℝ D]

/-- C43, totality: for a posynomial without units the helpers return an expression, except that `te_tangent` refuses more than 15 terms. -/
theorem C43_total (se : Bool) {p : PyVal V ℝ D} (hp : IsPosy p) (n : ℕ) :
    (∃ r, teExp se p n = .ok r) ∧ (∃ r, teSec se p n = .ok r) ∧
    (n ≤ 15 → ∃ r, teTan se p n = .ok r) ∧ (15 < n → teTan se p n = .error .notImplemented) := by
  refine ⟨?_, ?_, fun hn => ?_, fun hn => ?_⟩
  · obtain ⟨r, h, _⟩ := teExpLoop_posy se hp n
    exact ⟨r, by simp [teExp, h, bind, Except.bind, pure, Except.pure]⟩
  · obtain ⟨r, h, _⟩ := teSecLoop_posy se (eulers_pos n) hp n (eulers_length n)
    exact ⟨r, by simp [teSec, h, bind, Except.bind, pure, Except.pure]⟩
  · obtain ⟨r, h, _⟩ := teTanLoop_posy se bernoulli_sign hp n (by simpa [bernoulliTable] using hn)
    exact ⟨r, by simp [teTan, h, bind, Except.bind, pure, Except.pure, hn]⟩
  · simp [teTan, hn]

/-- C43, exponential: `te_exp_minus1(p, n)` evaluates to the Taylor polynomial of order `n` of `exp - 1`, for every `n`, whatever expression `p` is. -/
theorem C43_exp (se : Bool) {p r : PyVal V ℝ D} (hp : p.Good) (n : ℕ) (h : teExp se p n = .ok r) :
    ∃ P, TaylorOf (fun x => Real.exp x - 1) n P ∧ ∀ pt, (∀ v, 0 < pt v) → r.phys pt = P.eval (p.phys pt) := by
  obtain ⟨⟨r', fd⟩, h1, h2⟩ := except_bind_ok h
  cases h2
  obtain ⟨_, _, hv⟩ := fd_exp n h1 hp
  refine ⟨_, exp_taylor n, fun pt hpt => ?_⟩
  rw [hv pt hpt, eval_finsetSum]
  refine sum_congr rfl (fun i _ => ?_)
  simp only [eval_mul, eval_C, eval_pow, eval_X]
  ring

/-- C43, secant, up to twelve terms: `te_secant(v, n)` evaluates to the Taylor polynomial of order `2n` of the secant. The full statement has no bound on
`n`; above 12 it fails (`C43_secant_fails`). -/
theorem C43_secant_partial (se : Bool) {p r : PyVal V ℝ D} (hp : p.Good) (n : ℕ) (hn : n ≤ 12) (h : teSec se p n = .ok r) :
    ∃ P, TaylorOf (fun x => (Real.cos x)⁻¹) (2 * n) P ∧ ∀ pt, (∀ v, 0 < pt v) → r.phys pt = P.eval (p.phys pt) := by
  obtain ⟨⟨r', fd⟩, h1, h2⟩ := except_bind_ok h
  cases h2
  rw [eulers_small hn] at h1
  obtain ⟨_, _, hv⟩ := fd_sec n h1 hp
  refine ⟨_, sec_taylor _ n (fun k hk => sec_conv k (by omega)), fun pt hpt => ?_⟩
  rw [hv pt hpt, evenPoly_eval]

/-- C43, tangent: `te_tangent(v, n)`, whenever it returns, evaluates to the Taylor polynomial of order `2n` of the tangent. -/
theorem C43_tangent (se : Bool) {p r : PyVal V ℝ D} (hp : p.Good) (n : ℕ) (h : teTan se p n = .ok r) :
    ∃ P, TaylorOf Real.tan (2 * n) P ∧ ∀ pt, (∀ v, 0 < pt v) → r.phys pt = P.eval (p.phys pt) := by
  unfold teTan at h
  split_ifs at h with hn
  obtain ⟨⟨r', fd⟩, h1, h2⟩ := except_bind_ok h
  cases h2
  obtain ⟨_, _, hv⟩ := fd_tan n h1 hp
  refine ⟨_, tan_taylor _ n (fun k hk => tan_conv k (by omega)), fun pt hpt => ?_⟩
  rw [hv pt hpt, eval_mul, eval_X, evenPoly_eval]

/-- The variable `x`. -/
def xVar : PyVal Unit ℝ Unit := .nom ⟨⟨[(⟨[((), 1)]⟩, 1)], none⟩, .monomial⟩

theorem xVar_phys (x : ℝ) : xVar.phys (fun _ => x) = x := by
  simp [xVar, PyVal.phys, physVal, termsVal, monVal, unitScale]

theorem xVar_posy : IsPosy xVar := by
  obtain ⟨n, h1, h2⟩ := mkSig_posy (D := Unit) (se := false) (rp := true) (ts := [((⟨[((), 1)]⟩ : HV Unit ℝ), (1 : ℝ))]) (by simp) (by simp)
  have : mkSig false true (⟨[((⟨[((), 1)]⟩ : HV Unit ℝ), (1 : ℝ))], none⟩ : NMap Unit ℝ Unit) =
      .ok ⟨⟨[(⟨[((), 1)]⟩, 1)], none⟩, .monomial⟩ := by
    simp [mkSig, NMap.anyNonpositive]
  rw [this] at h1
  cases h1
  exact h2

/-- C43 fails for the secant with 13 terms: the result for a variable `x` is not the Taylor polynomial, since the thirteenth Euler number is
replaced by its asymptotic formula. -/
theorem C43_secant_fails : ∃ r, teSec false xVar 13 = .ok r ∧
    ¬ ∃ P, TaylorOf (fun x => (Real.cos x)⁻¹) (2 * 13) P ∧ ∀ pt, (∀ v, 0 < pt v) → r.phys pt = P.eval (xVar.phys pt) := by
  obtain ⟨r, h⟩ := (C43_total false xVar_posy 13).2.1
  refine ⟨r, h, ?_⟩
  rintro ⟨P, hP, hv⟩
  obtain ⟨⟨r', fd⟩, h1, h2⟩ := except_bind_ok h
  cases h2
  rw [eulers_13] at h1
  obtain ⟨_, _, hw⟩ := fd_sec 13 h1 (posy_good xVar_posy)
  have hu := hP.unique (sec_taylor _ 13 sec13_conv)
  have heq : evenPoly (secCoeff (eulerTable ++ [(euler13 : ℝ)])) 14 = evenPoly (secCoeff (eulerTable ++ [eulerApprox 13])) 14 := by
    refine Polynomial.eq_of_infinite_eval_eq _ _ (Set.Infinite.mono ?_ (Set.Ioi_infinite (0 : ℝ)))
    intro x hx
    have e1 := hv (fun _ => x) (fun _ => hx)
    have e2 := hw (fun _ => x) (fun _ => hx)
    rw [xVar_phys, hu] at e1
    rw [xVar_phys] at e2
    rw [Set.mem_ofPred_eq, ← e1, e2, evenPoly_eval]
  have h1 := congrArg (fun Q => Q.eval 1) heq
  simp only [evenPoly_eval, one_pow, mul_one] at h1
  rw [sum_range_succ, sum_range_succ _ 13] at h1
  have hc : ∀ e : ℝ, ∑ j ∈ range 13, secCoeff (eulerTable ++ [e]) j = ∑ j ∈ range 13, secCoeff (eulerTable : List ℝ) j := by
    intro e
    refine sum_congr rfl (fun j hj => ?_)
    have : j < 13 := by simpa using hj
    unfold secCoeff
    split_ifs with h0
    · rfl
    · rw [List.getD_eq_getElem?_getD, List.getElem?_append_left (by simp [eulerTable]; omega), List.getD_eq_getElem?_getD]
  rw [hc, hc] at h1
  have h2 := add_left_cancel h1
  simp only [secCoeff, eulerTable, List.cons_append, List.nil_append] at h2
  norm_num at h2
  have := approx_lt
  linarith

/-- The hypotheses can be met: `x`, with four terms. -/
example : (∃ r, teExp false xVar 4 = .ok r) ∧ (∃ r, teSec false xVar 4 = .ok r) ∧ (∃ r, teTan false xVar 4 = .ok r) ∧ xVar.Good :=
  ⟨(C43_total false xVar_posy 4).1, (C43_total false xVar_posy 4).2.1, (C43_total false xVar_posy 4).2.2.1 (by norm_num), posy_good xVar_posy⟩

end Verif
