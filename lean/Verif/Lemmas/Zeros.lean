import Verif.Spec.Written
import Verif.Lemmas.Every
import Mathlib.Analysis.SpecialFunctions.Pow.Continuity

/-! Expressions and nomials at points where some variables are zero. -/

set_option linter.unusedSectionVars false

namespace Verif
open PyDict Written Filter Topology

variable {V D : Type} [DecidableEq V] [AddCommGroup D] [DecidableEq D]

/-- Variables that are zero have no negative exponents. -/
def NoInverse (pt : V → ℝ) (e : HV V ℝ) : Prop := ∀ x ∈ e.items, pt x.1 = 0 → 0 ≤ x.2

theorem set_items {Q : V → ℝ → Prop} {k : V} {c : ℝ} (hk : Q k c) : ∀ {a : PyDict V ℝ}, (∀ p ∈ a, Q p.1 p.2) → ∀ p ∈ a.set k c, Q p.1 p.2
  | [], _, p, hp => by
    simp only [PyDict.set, List.mem_singleton] at hp
    subst hp
    exact hk
  | x :: a, ha, p, hp => by
    rw [PyDict.set] at hp
    split at hp
    · rename_i he
      rcases List.mem_cons.1 hp with rfl | hp
      · rw [eq_of_beq he]; exact hk
      · exact ha p (List.mem_cons_of_mem _ hp)
    · rcases List.mem_cons.1 hp with rfl | hp
      · exact ha _ List.mem_cons_self
      · exact set_items hk (fun q hq => ha q (List.mem_cons_of_mem _ hq)) p hp

/-- A property of entries that is kept by adding values is kept by adding dicts. -/
theorem dictAdd_items {Q : V → ℝ → Prop} (hQ : ∀ k x y, Q k x → Q k y → Q k (x + y)) : ∀ {b a : PyDict V ℝ}, (∀ p ∈ a, Q p.1 p.2) →
    (∀ p ∈ b, Q p.1 p.2) → ∀ p ∈ dictAdd a b, Q p.1 p.2
  | [], a, ha, _ => ha
  | kv :: b, a, ha, hb => by
    rw [dictAdd_cons]
    refine dictAdd_items hQ ?_ (fun p hp => hb p (List.mem_cons_of_mem _ hp))
    have hkv := hb kv List.mem_cons_self
    unfold dictAddStep
    split
    · rename_i s hs
      split_ifs
      · intro p hp
        exact ha p ((del_sublist _ _).subset hp)
      · obtain ⟨k, hk, he⟩ := exists_mem_of_get? hs
        have := ha _ hk
        refine set_items (hQ _ _ _ hkv ?_) ha
        rw [eq_of_beq he] at this
        exact this
    · exact set_items hkv ha

theorem closed_noInverse (pt : V → ℝ) : Closed (NoInverse pt) := by
  refine ⟨by simp [NoInverse, HV.empty], ?_⟩
  intro a b ha hb
  exact dictAdd_items (Q := fun k x => pt k = 0 → 0 ≤ x) (fun k x y hx hy h0 => add_nonneg (hx h0) (hy h0)) ha hb

theorem scale_noInverse {pt : V → ℝ} {e : HV V ℝ} (he : NoInverse pt e) {x : ℝ} (h : 0 ≤ x ∨ monVal pt e.items ≠ 0) : NoInverse pt (e.scale x) := by
  intro y hy h0
  obtain ⟨z, hz, rfl⟩ := List.mem_map.1 hy
  rcases h with h | h
  · exact mul_nonneg (he z hz h0) h
  · have : z.2 = 0 := by
      by_contra hne
      apply h
      unfold monVal
      refine List.prod_eq_zero (List.mem_map.2 ⟨z, hz, ?_⟩)
      show pt z.1 ^ z.2 = 0
      rw [show pt z.1 = 0 from h0, Real.zero_rpow hne]
    show 0 ≤ z.2 * x
    rw [this, zero_mul]

theorem monVal_continuous {f : ℝ → V → ℝ} (hf : ∀ v, ContinuousAt (fun t => f t v) 0) : ∀ {e : List (V × ℝ)}, (∀ x ∈ e, f 0 x.1 = 0 → 0 ≤ x.2) →
    ContinuousAt (fun t => monVal (f t) e) 0
  | [], _ => by simpa [monVal] using continuousAt_const
  | x :: e, h => by
    have h1 := monVal_continuous hf (fun y hy => h y (List.mem_cons_of_mem _ hy))
    have h2 : ContinuousAt (fun t => f t x.1 ^ x.2) 0 := by
      refine (hf x.1).rpow_const ?_
      by_cases h0 : f 0 x.1 = 0
      · exact .inr (h x List.mem_cons_self h0)
      · exact .inl h0
    have h3 : (fun t => monVal (f t) (x :: e)) = fun t => f t x.1 ^ x.2 * monVal (f t) e := by
      funext t
      simp [monVal]
    rw [h3]
    exact h2.mul h1

theorem termsVal_continuous {f : ℝ → V → ℝ} (hf : ∀ v, ContinuousAt (fun t => f t v) 0) : ∀ {ts : PyDict (HV V ℝ) ℝ}, EveryTerm (NoInverse (f 0)) ts →
    ContinuousAt (fun t => termsVal (f t) ts) 0
  | [], _ => by simpa [termsVal] using continuousAt_const
  | t :: ts, h => by
    have h1 := termsVal_continuous hf (fun y hy => h y (List.mem_cons_of_mem _ hy))
    simp only [termsVal_cons]
    exact (continuousAt_const.mul (monVal_continuous hf (h t List.mem_cons_self))).add h1

theorem phys_continuous {f : ℝ → V → ℝ} (hf : ∀ v, ContinuousAt (fun t => f t v) 0) {r : PyVal V ℝ D} (h : r.Every (NoInverse (f 0))) :
    ContinuousAt (fun t => r.phys (f t)) 0 := by
  cases r with
  | num q => exact continuousAt_const
  | nom n => exact continuousAt_const.mul (termsVal_continuous hf h)

theorem denote_continuous {f : ℝ → V → ℝ} (hf : ∀ v, ContinuousAt (fun t => f t v) 0) (e : Expr V) (h : e.Defined (f 0)) :
    ContinuousAt (fun t => e.denote (f t)) 0 := by
  induction e with
  | var v => exact hf v
  | num c => exact continuousAt_const
  | add a b iha ihb => exact (iha h.1).add (ihb h.2)
  | sub a b iha ihb => exact (iha h.1).sub (ihb h.2)
  | mul a b iha ihb => exact (iha h.1).mul (ihb h.2)
  | div a b iha ihb => exact (iha h.1).div (ihb h.2.1) h.2.2
  | neg a iha => exact (iha h).neg
  | pow a p iha => exact (iha h.1).rpow_const h.2

/-- What is built for an expression has its value also where variables are zero, if nothing is divided by zero. -/
theorem build_value [Module ℝ D] {se : Bool} {vunits : V → Option (UnitQ D ℝ)} (hu : ∀ v, UnitOK (vunits v)) (e : Expr V) {r : PyVal V ℝ D}
    (h : e.build se vunits = .ok r) {pt : V → ℝ} (hpt : ∀ v, 0 ≤ pt v) (hd : e.Defined (physical vunits pt)) (hn : r.Every (NoInverse pt)) :
    r.phys pt = e.denote (physical vunits pt) := by
  have h1 : ContinuousAt (fun t : ℝ => r.phys (fun v => pt v + t)) 0 :=
    phys_continuous (f := fun t v => pt v + t) (fun v => continuousAt_const.add continuousAt_id) (by simpa using hn)
  have h2 : ContinuousAt (fun t : ℝ => e.denote (physical vunits (fun v => pt v + t))) 0 :=
    denote_continuous (f := fun t => physical vunits (fun v => pt v + t)) (fun v => continuousAt_const.mul (continuousAt_const.add continuousAt_id)) e
      (by simpa using hd)
  have h3 : Tendsto (fun t : ℝ => r.phys (fun v => pt v + t)) (𝓝[>] 0) (𝓝 (r.phys pt)) := by
    have := h1.tendsto.mono_left (nhdsWithin_le_nhds (s := Set.Ioi (0 : ℝ)))
    simpa using this
  have h4 : Tendsto (fun t : ℝ => e.denote (physical vunits (fun v => pt v + t))) (𝓝[>] 0) (𝓝 (e.denote (physical vunits pt))) := by
    have := h2.tendsto.mono_left (nhdsWithin_le_nhds (s := Set.Ioi (0 : ℝ)))
    simpa using this
  refine tendsto_nhds_unique_of_eventuallyEq h3 h4 ?_
  filter_upwards [self_mem_nhdsWithin] with t ht
  exact (build_ok hu e h).2 _ (fun v => add_pos_of_nonneg_of_pos (hpt v) ht)

theorem monVal_ne_of_phys {n : Nomial V ℝ D} {e : HV V ℝ} {c : ℝ} (he : n.hmap.terms = [(e, c)]) {pt : V → ℝ} (h : (PyVal.nom n).phys pt ≠ 0) :
    monVal pt e.items ≠ 0 := by
  intro h0
  apply h
  simp [PyVal.phys, physVal, he, h0]

/-- What is built for an expression in which nothing is divided by zero has no negative powers of zero. -/
theorem build_noInverse [Module ℝ D] {se : Bool} {vunits : V → Option (UnitQ D ℝ)} (hu : ∀ v, UnitOK (vunits v)) {pt : V → ℝ} (hpt : ∀ v, 0 ≤ pt v)
    (e : Expr V) {r : PyVal V ℝ D} (h : e.build se vunits = .ok r) (hd : e.Defined (physical vunits pt)) : r.Every (NoInverse pt) := by
  have hP := closed_noInverse pt
  induction e generalizing r with
  | var w =>
    cases h
    intro t ht
    simp only [varNomial, List.mem_singleton] at ht
    subst ht
    intro x hx _
    rw [List.mem_singleton] at hx
    subst hx
    exact zero_le_one
  | num c => cases h; trivial
  | add a b iha ihb =>
    obtain ⟨x, h1, h2⟩ := except_bind_ok h
    obtain ⟨y, h3, h4⟩ := except_bind_ok h2
    exact pyAdd_every hP (iha h1 hd.1) (ihb h3 hd.2) h4
  | sub a b iha ihb =>
    obtain ⟨x, h1, h2⟩ := except_bind_ok h
    obtain ⟨y, h3, h4⟩ := except_bind_ok h2
    exact pySub_every hP (iha h1 hd.1) (ihb h3 hd.2) h4
  | mul a b iha ihb =>
    obtain ⟨x, h1, h2⟩ := except_bind_ok h
    obtain ⟨y, h3, h4⟩ := except_bind_ok h2
    exact pyMul_every hP (iha h1 hd.1) (ihb h3 hd.2) h4
  | div a b iha ihb =>
    obtain ⟨x, h1, h2⟩ := except_bind_ok h
    obtain ⟨y, h3, h4⟩ := except_bind_ok h2
    have hy := ihb h3 hd.2.1
    refine pyDiv_every hP (iha h1 hd.1) ?_ (build_ok hu b h3).1 h4
    rintro n e c rfl he
    refine scale_noInverse (hy (e, c) (by rw [he]; exact List.mem_singleton.2 rfl)) (.inr (monVal_ne_of_phys he ?_))
    rw [build_value hu b h3 hpt hd.2.1 hy]
    exact hd.2.2
  | neg a iha =>
    obtain ⟨x, h1, h2⟩ := except_bind_ok h
    exact pyNeg_every hP (iha h1 hd) h2
  | pow a p iha =>
    obtain ⟨x, h1, h2⟩ := except_bind_ok h
    have hx := iha h1 hd.1
    refine pyPow_every hP hx ?_ (build_ok hu a h1).1 h2
    rintro n e c rfl he
    refine scale_noInverse (hx (e, c) (by rw [he]; exact List.mem_singleton.2 rfl)) ?_
    rcases hd.2 with h5 | h5
    · refine .inr (monVal_ne_of_phys he ?_)
      rw [build_value hu a h1 hpt hd.1 hx]
      exact h5
    · exact .inl h5

end Verif
