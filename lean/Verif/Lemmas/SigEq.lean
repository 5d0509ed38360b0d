import Verif.Props.Approx
import Verif.Props.Inequality

/-! How far a posynomial can be from its monomial approximation. -/

set_option linter.unusedSectionVars false

namespace Verif
open PyDict

variable {V D : Type} [DecidableEq V] [AddCommGroup D] [DecidableEq D]

theorem exists_le_mean {ι : Type} : ∀ (l : List ι) (w ℓ : ι → ℝ) (L : ℝ), l ≠ [] → (∀ i ∈ l, 0 < w i) →
    (l.map (fun i => w i * ℓ i)).sum ≤ (l.map w).sum * L → ∃ i ∈ l, ℓ i ≤ L
  | [], _, _, _, h, _, _ => absurd rfl h
  | a :: l, w, ℓ, L, _, hw, hs => by
    by_cases ha : ℓ a ≤ L
    · exact ⟨a, by simp, ha⟩
    · have hwa := hw a (by simp)
      simp only [List.map_cons, List.sum_cons] at hs
      have hlt : w a * L < w a * ℓ a := mul_lt_mul_of_pos_left (not_le.1 ha) hwa
      by_cases hl : l = []
      · subst hl
        simp only [List.map_nil, List.sum_nil, add_zero] at hs
        linarith
      · obtain ⟨i, hi, hle⟩ := exists_le_mean l w ℓ L hl (fun i hi => hw i (by simp [hi])) (by nlinarith)
        exact ⟨i, by simp [hi], hle⟩

theorem monVal_ratio {pt pt0 : V → ℝ} (hpt : ∀ v, 0 < pt v) (hpt0 : ∀ v, 0 < pt0 v) {e : HV V ℝ} (he : WF e.items) {vs : List V} (hnd : vs.Nodup)
    (hsub : ∀ kx ∈ e.items, kx.1 ∈ vs) :
    monVal pt e.items = monVal pt0 e.items * Real.exp (vs.map (fun v => expo e v * (Real.log (pt v) - Real.log (pt0 v)))).sum := by
  rw [monVal_exp_vs hpt he hnd hsub, monVal_exp_vs hpt0 he hnd hsub, ← Real.exp_add]
  congr 1
  clear hsub hnd
  induction vs with
  | nil => simp
  | cons v vs ih =>
    simp only [List.map_cons, List.sum_cons]
    rw [ih]
    ring

/-- The other direction of C11: where terms do not move apart by more than a factor `B`, the posynomial is at most `B` times its approximation. -/
theorem monoLowerBound_upper {p m : Nomial V ℝ D} {vunits : V → Option (UnitQ D ℝ)} {x0 : PyDict V ℝ}
    {ord : Orders V ℝ} {vs : List V}
    (hc : TermsCanonical p.hmap.terms) (hne : p.hmap.terms ≠ []) (hct : p.ClassTrue) (hpos : p.AllPos) (ho : ord.Valid)
    (hvs : vs.Perm p.hmap.vks) (hx0 : ∀ t ∈ p.hmap.terms, ∀ v x, t.1.get? v = some x → x0.contains v = true)
    (hm : p.monoLowerBound vunits x0 ord vs = .ok m)
    (pt0 : V → ℝ) (hpt0 : ∀ v c, x0.get? v = some c → pt0 v = c) (hpt0pos : ∀ v, 0 < pt0 v) (pt : V → ℝ) (hpt : ∀ v, 0 < pt v) (B : ℝ)
    (hB : ∀ t ∈ p.hmap.terms, ∀ u ∈ p.hmap.terms, monVal pt t.1.items * monVal pt0 u.1.items ≤ B * (monVal pt0 t.1.items * monVal pt u.1.items)) :
    termsVal pt p.hmap.terms ≤ B * termsVal pt m.hmap.terms := by
  have hwf : ∀ t ∈ p.hmap.terms, WF t.1.items := fun t ht => ((expCanonical_iff _).1 (hc.1 t ht).1).1
  obtain ⟨e, c, hme, hec, hcpos⟩ := monoLowerBound_shape hc hct hm
  have hewf : WF e.items := ((expCanonical_iff _).1 hec).1
  obtain ⟨-, htan, hder, -⟩ := C11_tangent_lower_bound hc hne hpos ho hvs hx0 hm pt0 hpt0 hpt0pos
  rw [hme] at htan hder ⊢
  simp only [termsVal_cons, termsVal_nil, add_zero] at htan ⊢
  have hmwf : ∀ t ∈ [(e, c)], WF t.1.items := by
    intro t ht
    rw [List.mem_singleton] at ht
    rw [ht]
    exact hewf
  set c0 := termsVal pt0 p.hmap.terms with hc0
  have hexpo : ∀ v, c0 * expo e v = logGrad pt0 p.hmap.terms v := by
    intro v
    obtain ⟨d, d1, d2⟩ := hder v
    have u1 := d1.unique (termsVal_hasDerivAt (hpt0pos v) hmwf)
    have u2 := d2.unique (termsVal_hasDerivAt (hpt0pos v) hwf)
    rw [← val_diff_eq (hpt0pos v) hwf, ← u2, u1, val_diff_eq (hpt0pos v) hmwf]
    unfold logGrad
    simp [htan]
  let ws : List V := (p.hmap.terms.flatMap (fun t => t.1.items.map (·.1)) ++ e.items.map (·.1)).dedup
  have hnd : ws.Nodup := List.nodup_dedup _
  have hsubp : ∀ t ∈ p.hmap.terms, ∀ kx ∈ t.1.items, kx.1 ∈ ws := by
    intro t ht kx hkx
    simp only [ws, List.mem_dedup, List.mem_append, List.mem_flatMap]
    exact Or.inl ⟨t, ht, List.mem_map.2 ⟨kx, hkx, rfl⟩⟩
  have hsube : ∀ kx ∈ e.items, kx.1 ∈ ws := by
    intro kx hkx
    simp only [ws, List.mem_dedup, List.mem_append]
    exact Or.inr (List.mem_map.2 ⟨kx, hkx, rfl⟩)
  let g : V → ℝ := fun v => Real.log (pt v) - Real.log (pt0 v)
  let ℓ : HV V ℝ × ℝ → ℝ := fun t => (ws.map (fun v => expo t.1 v * g v)).sum
  let w : HV V ℝ × ℝ → ℝ := fun t => t.2 * monVal pt0 t.1.items
  let L : ℝ := (ws.map (fun v => expo e v * g v)).sum
  have hw : ∀ t ∈ p.hmap.terms, 0 < w t := fun t ht => mul_pos (hpos t ht) (monVal_pos hpt0pos _)
  have hmean : (p.hmap.terms.map (fun t => w t * ℓ t)).sum = (p.hmap.terms.map w).sum * L := by
    have e1 : (p.hmap.terms.map w).sum = c0 := rfl
    rw [e1]
    simp only [w, ℓ, L]
    rw [logGrad_interchange]
    clear_value ws
    clear hnd hsubp hsube
    induction ws with
    | nil => simp
    | cons v vs ih =>
      simp only [List.map_cons, List.sum_cons]
      rw [ih, ← hexpo v]
      ring
  obtain ⟨u, hu, huL⟩ := exists_le_mean p.hmap.terms w ℓ L hne hw hmean.le
  have hmpt : c * monVal pt e.items = c0 * Real.exp L := by
    rw [monVal_ratio hpt hpt0pos hewf hnd hsube, ← mul_assoc, htan]
  have hterm : ∀ t ∈ p.hmap.terms, monVal pt t.1.items = monVal pt0 t.1.items * Real.exp (ℓ t) :=
    fun t ht => monVal_ratio hpt hpt0pos (hwf t ht) hnd (hsubp t ht)
  have hB0 : 0 < B := by
    have h1 := hB u hu u hu
    have h2 := monVal_pos hpt u.1.items
    have h3 := monVal_pos hpt0pos u.1.items
    have h4 : 0 < B * (monVal pt0 u.1.items * monVal pt u.1.items) := lt_of_lt_of_le (mul_pos h2 h3) h1
    exact (pos_iff_pos_of_mul_pos h4).2 (mul_pos h3 h2)
  have hbound : ∀ t ∈ p.hmap.terms, monVal pt t.1.items ≤ monVal pt0 t.1.items * (B * Real.exp L) := by
    intro t ht
    have h1 := hB t ht u hu
    have h2 := monVal_pos hpt0pos t.1.items
    have h3 := monVal_pos hpt0pos u.1.items
    rw [hterm u hu] at h1
    have h4 : monVal pt t.1.items ≤ monVal pt0 t.1.items * (B * Real.exp (ℓ u)) := by
      refine le_of_mul_le_mul_right (a := monVal pt0 u.1.items) ?_ h3
      linarith
    refine h4.trans ?_
    have h5 : Real.exp (ℓ u) ≤ Real.exp L := Real.exp_le_exp.2 huL
    gcongr
  rw [hmpt]
  have hsum : termsVal pt p.hmap.terms ≤ (p.hmap.terms.map (fun t => t.2 * monVal pt0 t.1.items * (B * Real.exp L))).sum := by
    unfold termsVal
    apply List.sum_le_sum
    intro t ht
    rw [mul_assoc]
    exact mul_le_mul_of_nonneg_left (hbound t ht) (hpos t ht).le
  refine hsum.trans (le_of_eq ?_)
  rw [List.sum_map_mul_right]
  show c0 * (B * Real.exp L) = _
  ring

end Verif
