import Verif.Lemmas.Shadow
import Verif.Props.CostSens
import Mathlib.Analysis.Calculus.LocalExtr.Basic

/-!
# C77: sensitivities bound the cost of every changed model

The sensitivities of a solved model say how the optimal cost changes if its constants change: the cost of every point that satisfies the constraints with other values of
the constants is at least the reported one times, for every constant, the ratio of the new to the old value to the power of its sensitivity. So they are the
derivatives of the optimal cost, in logarithms.
-/

set_option linter.unusedSectionVars false

namespace Verif
open PyDict GP Pipeline

section
variable {V D : Type} [DecidableEq V] [AddCommGroup D] [DecidableEq D]

/-- The bound for all constraints. -/
theorem cons_bound {feastol : ℝ} (hf : 0 ≤ feastol) {fixed : PyDict V ℝ} (hwf : WF fixed) (hfix : ∀ v c, fixed.get? v = some c → 0 < c)
    {ord : Orders V ℝ} (hord : ord.Valid) : ∀ {cons : List (Con V D)}, (∀ c ∈ cons, ConOK c) →
    (∀ c ∈ cons, ∀ u, c.unsubbed feastol = .ok u → ∀ n ∈ u, MergesLate n.hmap.terms (varlocKeys n.hmap.terms fixed)) → ∀ {hss : List (List (Hmap V ℝ))},
    List.Forall₂ (fun c hs => Con.hmaps feastol fixed ord c = .ok hs) cons hss → ∀ {blocks : List (ℝ × List ℝ)}, List.Forall₂ BlockOK blocks hss.flatten →
    ∀ {vss : List (List (PyDict V ℝ × ℝ))}, conSenss feastol fixed ord cons blocks = .ok vss →
    (∀ e ∈ vss.flatten, WF e.1) ∧ vss.length = cons.length ∧ ∀ pt : V → ℝ, (∀ v, 0 < pt v) → ∀ σs : List ℝ,
      List.Forall₂ (fun c σ => 0 < σ ∧ (σ = 1 ∨ c.NoConst fixed) ∧ Con.Holds σ pt c) cons σs →
      ((blocks.zip hss.flatten).map (fun p => blockVal p.1.2 p.2.terms pt)).sum + (vss.flatten.map (fun e => shift fixed pt (sensAt e.1))).sum ≤
        ((vss.zip σs).map (fun p => lastSens (p.1.map (·.2)) * Real.log p.2)).sum
  | [], _, _, hss, hfa, blocks, hb, vss, hv => by
    cases hfa
    cases hb
    cases hv
    exact ⟨by simp, rfl, fun pt _ σs _ => by simp⟩
  | c :: cons, hcons, hlate, hss, hfa, blocks, hb, vss, hv => by
    cases hfa with
    | cons h1 hfa =>
      rename_i hs hss
      unfold conSenss at hv
      rw [h1] at hv
      obtain ⟨hs', hhs', hv⟩ := except_bind_ok hv
      cases hhs'
      obtain ⟨here, hh, hv⟩ := except_bind_ok hv
      obtain ⟨rest, hr, hv⟩ := except_bind_ok hv
      cases hv
      rw [List.flatten_cons] at hb ⊢
      have hb1 : List.Forall₂ BlockOK (blocks.take hs.length) hs := by
        have := List.forall₂_take hs.length hb
        rwa [List.take_left] at this
      have hb2 : List.Forall₂ BlockOK (blocks.drop hs.length) hss.flatten := by
        have := List.forall₂_drop hs.length hb
        rwa [List.drop_left] at this
      obtain ⟨w1, b1⟩ := con_bound hf hwf hfix hord (hcons c (by simp)) (hlate c (by simp)) h1 hb1 hh
      obtain ⟨w2, l2, b2⟩ := cons_bound hf hwf hfix hord (fun c hc => hcons c (by simp [hc])) (fun c hc => hlate c (by simp [hc])) hfa hb2 hr
      refine ⟨?_, by simp [l2], ?_⟩
      · intro e he
        rcases List.mem_append.1 (show e ∈ here ++ rest.flatten from he) with he | he
        · exact w1 e he
        · exact w2 e he
      · intro pt hpt σs hH
        cases hH with
        | cons hH0 hHs =>
        rename_i σ σs
        have e1 := b1 pt hpt σ hH0.1 hH0.2.1 hH0.2.2
        have e2 := b2 pt hpt σs hHs
        have hz : blocks.zip (hs ++ hss.flatten) = (blocks.take hs.length).zip hs ++ (blocks.drop hs.length).zip hss.flatten := by
          conv_lhs => rw [← List.take_append_drop hs.length blocks]
          rw [List.zip_append hb1.length_eq]
        rw [List.flatten_cons, hz, List.map_append, List.map_append, List.sum_append, List.sum_append, List.zip_cons_cons, List.map_cons, List.sum_cons]
        linarith

theorem blocks_ok {H : List (Hmap V ℝ)} {nu : Nat → ℝ} {la : List ℝ}
    (hla : la = (genLoop H).mIdxs.map (fun mi => ((List.range' mi.1 (mi.2 - mi.1)).map nu).sum))
    (hnu : ∀ i < (genLoop H).cs.length, 0 ≤ nu i) : List.Forall₂ BlockOK (la.zip (nuByPosy (genLoop H) nu)) H := by
  have hz : la.zip (nuByPosy (genLoop H) nu) = (genLoop H).mIdxs.map (fun mi => (((List.range' mi.1 (mi.2 - mi.1)).map nu).sum, (List.range' mi.1 (mi.2 - mi.1)).map nu)) := by
    rw [hla]
    unfold nuByPosy
    rw [List.zip_map']
  rw [hz, List.forall₂_map_left_iff, List.forall₂_iff_get]
  refine ⟨gen_mIdxs_length H, ?_⟩
  intro i h1 h2
  have hm := gen_mIdxs H i
  rw [List.getElem?_eq_getElem h1, List.getElem?_eq_getElem h2] at hm
  simp only [Option.map_some, Option.some.injEq] at hm
  simp only [List.get_eq_getElem]
  rw [hm]
  refine ⟨rfl, by simp, ?_⟩
  intro x hx
  obtain ⟨j, hj, rfl⟩ := List.mem_map.1 hx
  rw [List.mem_range'_1] at hj
  have hle := start_le (List.getElem?_eq_getElem h2)
  refine hnu j ?_
  rw [gen_cs, List.length_map]
  simp only at hj
  omega

theorem solveSens_ok {feastol tol abstol : ℝ} {optimize : Data V ℝ → Except Err SolverOut} {cost : NMap V ℝ D} {cons : List (Con V D)}
    {fixed : PyDict V ℝ} {ord : Orders V ℝ} {r : Result V} {ss : Senss V} {b : Bool}
    (h : solveSens feastol tol abstol optimize cost cons fixed ord = .ok (r, ss, b)) :
    solve feastol tol abstol optimize cost cons fixed ord = .ok (r, b) ∧ ∃ H out la nu, hmaps feastol cost cons fixed ord = .ok H ∧
      optimize (genLoop H) = .ok out ∧ generateNula (genLoop H) (vec out.primal) out.dual = some (la, nu) ∧
      compileSens feastol cost cons fixed ord la (nuByPosy (genLoop H) nu) = .ok ss := by
  unfold solveSens at h
  obtain ⟨H, hH, h1⟩ := except_bind_ok h
  obtain ⟨out, ho, h2⟩ := except_bind_ok h1
  obtain ⟨r', hr, h3⟩ := except_bind_ok h2
  split at h3
  · cases h3
  rename_i la nu hnu
  obtain ⟨ss', hss, h4⟩ := except_bind_ok h3
  cases h4
  refine ⟨?_, H, out, la, nu, hH, ho, hnu, hss⟩
  unfold solve
  rw [hH]
  simp only [bind, Except.bind, ho]
  exact hr

/-- The terms of the cost are in the same places after the constants are put in. -/
def CostAligned (cost : NMap V ℝ D) (fixed : PyDict V ℝ) (ord : Orders V ℝ) : Prop :=
  ∀ h, cost.sub fixed (ord cost.terms fixed) = .ok h → ∀ pt : V → ℝ, (∀ v, 0 < pt v) →
    List.Forall₂ (fun t t' : HV V ℝ × ℝ => t.2 * monVal (override pt fixed) t.1.items = t'.2 * monVal pt t'.1.items) cost.terms h.terms

theorem shadow_relaxed {feastol tol abstol : ℝ} (hf : 0 ≤ feastol) (htol : 0 ≤ tol) {optimize : Data V ℝ → Except Err SolverOut}
    {cost : NMap V ℝ D} (hcc : TermsCanonical cost.terms) (hcne : cost.terms ≠ []) (hcpos : ∀ t ∈ cost.terms, 0 < t.2) {cons : List (Con V D)}
    {fixed : PyDict V ℝ} (hcons : ∀ c ∈ cons, ConOK c)
    (hwf : WF fixed) (hfix : ∀ v c, fixed.get? v = some c → 0 < c) {ord : Orders V ℝ} (hord : ord.Valid) (hal : CostAligned cost fixed ord)
    (hlate : ∀ c ∈ cons, ∀ u, c.unsubbed feastol = .ok u → ∀ n ∈ u, MergesLate n.hmap.terms (varlocKeys n.hmap.terms fixed))
    (hlen : ∀ d out l, optimize d = .ok out → out.dual = .la l → l.length = d.mIdxs.length ∨ l.length + 1 = d.mIdxs.length)
    (hnn : ∀ d out la nu, optimize d = .ok out → generateNula d (vec out.primal) out.dual = some (la, nu) →
      checkSolution d out.objective (vec out.primal) nu la tol abstol = true → ∀ i < d.cs.length, 0 ≤ nu i)
    {r : Result V} {ss : Senss V}
    (h : solveSens feastol tol abstol optimize cost cons fixed ord = .ok (r, ss, true)) :
    ss.cons.length = cons.length ∧ ∃ e n, Close tol abstol (Real.exp e) r.cost ∧ Close tol abstol n 1 ∧ ∀ pt : V → ℝ, (∀ v, 0 < pt v) → ∀ σs : List ℝ,
      List.Forall₂ (fun c σ => 0 < σ ∧ (σ = 1 ∨ c.NoConst fixed) ∧ Con.Holds σ pt c) cons σs →
      e - tol * ((r.free.map (·.1)).map (fun v => |Real.log (pt v)|)).sum + shift fixed pt (sensAt ss.vars) ≤
        n * Real.log (termsVal pt cost.terms) + ((ss.cons.zip σs).map (fun p => lastSens p.1 * Real.log p.2)).sum := by
  obtain ⟨hsolve, H', out', la', nu', hH', ho', hnu', hss⟩ := solveSens_ok h
  obtain ⟨H, out, la, nu, hH, ho, hl, rfl, hnu, hchk⟩ := solve_ok hsolve
  rw [hH'] at hH
  cases hH
  rw [ho'] at ho
  cases ho
  rw [hnu'] at hnu
  cases hnu
  have hH := hH'
  obtain ⟨h0, hs, rfl, hok, -⟩ := program_spec hf (le_refl feastol) hcc hcne (fun c hc => ⟨hcons c hc, noZero_of_pos hfix c⟩) (fun v c hv => (hfix v c hv).le) hord hH
  have hw : ∀ h ∈ h0 :: hs, ∀ t ∈ h.terms, (t.1.items.map (·.1)).Nodup := fun h hh t ht => ((hok h hh).1.1 t ht).1.1
  have hla := C40_multipliers (h0 :: hs) (fun h hh => (hok h hh).2) (vec out'.primal) out'.dual
    (by intro l hl'; have := hlen _ out' l ho' hl'; rwa [gen_mIdxs_length] at this) la' nu' hnu'
  have hn := hnn _ _ _ _ ho' hnu' hchk.symm
  have hbl := blocks_bound h0 hs hw (fun h hh => (hok h hh).2.2) out'.objective (vec out'.primal) nu' la' tol abstol htol hla hn hchk.symm
  have hbo := blocks_ok hla hn
  unfold hmaps at hH
  obtain ⟨g0, hg0, h1⟩ := except_bind_ok hH
  split at h1
  · cases h1
  obtain ⟨hss', hhs, h2⟩ := except_bind_ok h1
  cases h2
  have hfa := mapM_hmaps hhs
  unfold compileSens at hss
  obtain ⟨vss, hvss, h3⟩ := except_bind_ok hss
  cases h3
  generalize hN : nuByPosy (genLoop ({ terms := g0.terms, fromMeq := false } :: hss'.flatten)) nu' = N at hbl hbo hvss
  have hms : ∃ ms, (genLoop ({ terms := g0.terms, fromMeq := false } :: hss'.flatten)).mIdxs = (0, g0.terms.length) :: ms := by
    have hg := gen_mIdxs ({ terms := g0.terms, fromMeq := false } :: hss'.flatten) 0
    cases hml : (genLoop ({ terms := g0.terms, fromMeq := false } :: hss'.flatten)).mIdxs with
    | nil => rw [hml] at hg; simp at hg
    | cons m ms =>
      rw [hml] at hg
      simp [start] at hg
      exact ⟨ms, by rw [hg]⟩
  obtain ⟨ms, hms⟩ := hms
  have hchk' := hchk.symm
  unfold checkSolution at hchk'
  rw [hms] at hchk'
  simp only [Bool.and_eq_true, Bool.not_eq_true'] at hchk'
  obtain ⟨⟨⟨⟨⟨⟨c1, c2⟩, c3⟩, c4⟩, c5⟩, c6⟩, c7⟩ := hchk'
  have hN0 : N = (List.range g0.terms.length).map nu' :: N.tail := by
    rw [← hN]
    unfold nuByPosy
    rw [hms]
    simp [List.range_eq_range']
  generalize N.tail = Nt at hN0 hvss
  subst hN0
  cases la' with
  | nil => rw [hms] at hla; cases hla
  | cons l0 lt =>
    rw [List.zip_cons_cons] at hbo
    cases hbo with
    | cons hb0 hbo =>
      obtain ⟨hb1, hb2, hb3⟩ := hb0
      simp only [List.tail_cons] at hvss
      obtain ⟨w, wl, hb⟩ := cons_bound hf hwf hfix hord hcons hlate hfa hbo hvss
      refine ⟨by simp [wl], _, ((List.range g0.terms.length).map nu').sum, almostEqual_close c7, ?_, ?_⟩
      · have := almostEqual_close c3
        unfold sliceSum at this
        rwa [Nat.sub_zero, ← List.range_eq_range'] at this
      · intro pt hpt σs hh
        have e1 := hbl pt hpt
        have e2 := hb pt hpt σs hh
        have e3 := cost_bound (fun t ht => ((expCanonical_iff _).1 (hcc.1 t ht).1).1) hcpos hwf hfix hpt (hal _ hg0 pt hpt) hb2 hb3
        have hz : ((((genLoop ({ terms := g0.terms, fromMeq := false } :: hss'.flatten)).varlocs.map (·.1)).zip (out'.primal.map Real.exp)).map (·.1)) =
            (genLoop ({ terms := g0.terms, fromMeq := false } :: hss'.flatten)).varlocs.map (·.1) := by
          rw [List.map_fst_zip]
          simp [hl]
        simp only [hz]
        rw [List.zip_cons_cons, List.map_cons, List.sum_cons] at e1
        have hz2 : ((Nt.zip hss'.flatten).map (fun p => blockVal p.1 p.2.terms pt)).sum = (((lt.zip Nt).zip hss'.flatten).map (fun p => blockVal p.1.2 p.2.terms pt)).sum := by
          have hl1 : Nt.length = lt.length := by
            have e1 := congrArg List.length hN
            have e2 := congrArg List.length hla
            unfold nuByPosy at e1
            simp only [List.length_map, List.length_cons] at e1 e2
            omega
          have : (lt.zip Nt).map (·.2) = Nt := List.map_snd_zip hl1.le
          conv_lhs => rw [← this]
          rw [List.zip_map_left, List.map_map]
          rfl
        rw [hz2] at e1
        have hsh : shift fixed pt (sensAt (Sens.gather (Sens.costSens ((List.range g0.terms.length).map nu') cost.terms.keys) (vss.flatten.map (·.1)))) =
            shift fixed pt (sensAt (Sens.costSens ((List.range g0.terms.length).map nu') cost.terms.keys)) +
              (vss.flatten.map (fun e => shift fixed pt (sensAt e.1))).sum := by
          rw [shift_congr (C41_gather (by intro e he; obtain ⟨q, hq, rfl⟩ := List.mem_map.1 he; exact w q hq)), shift_add, shift_sum, List.map_map]
          rfl
        have hzs : (((vss.map (fun l => l.map (·.2))).zip σs).map (fun p => lastSens p.1 * Real.log p.2)).sum =
            ((vss.zip σs).map (fun p => lastSens (p.1.map (·.2)) * Real.log p.2)).sum := by
          rw [List.zip_map_left, List.map_map]
          rfl
        rw [hzs]
        simp only [List.headD_cons]
        rw [hsh]
        linarith

theorem unrelaxed {fixed : PyDict V ℝ} {pt : V → ℝ} {cons : List (Con V D)} (h : ∀ c ∈ cons, c.Holds 1 pt) :
    List.Forall₂ (fun c σ => 0 < σ ∧ (σ = 1 ∨ c.NoConst fixed) ∧ Con.Holds σ pt c) cons (cons.map (fun _ => (1 : ℝ))) := by
  rw [List.forall₂_map_right_iff, List.forall₂_same]
  exact fun c hc => ⟨one_pos, .inl rfl, h c hc⟩

theorem unrelaxed_sum (ls : List (List ℝ)) (cons : List (Con V D)) :
    ((ls.zip (cons.map (fun _ => (1 : ℝ)))).map (fun p => lastSens p.1 * Real.log p.2)).sum = 0 := by
  apply List.sum_eq_zero
  intro x hx
  obtain ⟨p, hp, rfl⟩ := List.mem_map.1 hx
  obtain ⟨c, -, hc⟩ := List.mem_map.1 (List.of_mem_zip hp).2
  rw [← hc, Real.log_one, mul_zero]

theorem dual_nonneg {optimize : Data V ℝ → Except Err SolverOut}
    (hopt : ∀ d out l, optimize d = .ok out → out.dual = .la l →
      (l.length = d.mIdxs.length ∨ l.length + 1 = d.mIdxs.length) ∧ ∀ x ∈ l, 0 ≤ x)
    (hopt' : ∀ d out n, optimize d = .ok out → out.dual = .nu n → ∀ i, 0 ≤ n i) {d : Data V ℝ} {out : SolverOut} {la : List ℝ} {nu : Nat → ℝ}
    (ho : optimize d = .ok out) (hnu : generateNula d (vec out.primal) out.dual = some (la, nu)) (i : ℕ) : 0 ≤ nu i := by
  cases hd : out.dual with
  | none => rw [hd] at hnu; simp [generateNula] at hnu
  | nu n =>
    rw [hd] at hnu
    simp only [generateNula, Option.some.injEq, Prod.mk.injEq] at hnu
    rw [← hnu.2]
    exact hopt' _ out n ho hd i
  | la l =>
    rw [hd] at hnu
    simp only [generateNula, Option.some.injEq, Prod.mk.injEq] at hnu
    rw [← hnu.2]
    simp only
    have hl0 := (hopt _ out l ho hd).2
    refine div_nonneg (mul_nonneg ?_ (Real.exp_pos _).le) (List.sum_nonneg ?_)
    · have hall : ∀ x ∈ (if l.length + 1 = d.mIdxs.length then 1 :: l else l), (0 : ℝ) ≤ x := by
        intro x hx
        split at hx
        · rcases List.mem_cons.1 hx with rfl | hx
          · exact zero_le_one
          · exact hl0 x hx
        · exact hl0 x hx
      generalize (if l.length + 1 = d.mIdxs.length then 1 :: l else l) = l' at hall
      cases hg : l'[(d.pIdxs[i]?).getD 0]? with
      | none => exact le_refl _
      | some x => exact hall x (List.mem_of_getElem? hg)
    · intro x hx
      obtain ⟨_, -, rfl⟩ := List.mem_map.1 hx
      exact (Real.exp_pos _).le

/-- C77 with tolerances: if a solve returns without a warning and the multipliers of the solver are not negative, then for every point that satisfies the constraints of the
model, whatever values it has for the constants, the logarithm of its cost is at least that of the reported one plus, for every constant, its sensitivity times the
change of its logarithm: there are a number `e` whose exponential is the reported cost and a number `n` that is one, up to the tolerances of the check. Missing:
costs whose terms change places if constants are put in (see C56 and `C77_bound_fails`), constants for which shares are lost (see C15), linked variables (see C41),
constraints solved before (see C49), signomials, and constants that are not positive. -/
theorem C77_bound_partial {feastol tol abstol : ℝ} (hf : 0 ≤ feastol) (htol : 0 ≤ tol) {optimize : Data V ℝ → Except Err SolverOut}
    {cost : NMap V ℝ D} (hcc : TermsCanonical cost.terms) (hcne : cost.terms ≠ []) (hcpos : ∀ t ∈ cost.terms, 0 < t.2) {cons : List (Con V D)}
    {fixed : PyDict V ℝ} (hcons : ∀ c ∈ cons, ConOK c)
    (hwf : WF fixed) (hfix : ∀ v c, fixed.get? v = some c → 0 < c) {ord : Orders V ℝ} (hord : ord.Valid) (hal : CostAligned cost fixed ord)
    (hlate : ∀ c ∈ cons, ∀ u, c.unsubbed feastol = .ok u → ∀ n ∈ u, MergesLate n.hmap.terms (varlocKeys n.hmap.terms fixed))
    (hopt : ∀ d out l, optimize d = .ok out → out.dual = .la l →
      (l.length = d.mIdxs.length ∨ l.length + 1 = d.mIdxs.length) ∧ ∀ x ∈ l, 0 ≤ x)
    (hopt' : ∀ d out n, optimize d = .ok out → out.dual = .nu n → ∀ i, 0 ≤ n i) {r : Result V} {ss : Senss V}
    (h : solveSens feastol tol abstol optimize cost cons fixed ord = .ok (r, ss, true)) :
    ∃ e n, Close tol abstol (Real.exp e) r.cost ∧ Close tol abstol n 1 ∧ ∀ pt : V → ℝ, (∀ v, 0 < pt v) → (∀ c ∈ cons, c.Holds 1 pt) →
      e - tol * ((r.free.map (·.1)).map (fun v => |Real.log (pt v)|)).sum + (fixed.map (fun p => sensAt ss.vars p.1 * (Real.log (pt p.1) - Real.log p.2))).sum
        ≤ n * Real.log (termsVal pt cost.terms) := by
  obtain ⟨-, e, n, he, hn, hb⟩ := shadow_relaxed hf htol hcc hcne hcpos hcons hwf hfix hord hal hlate (fun d out l h1 h2 => (hopt d out l h1 h2).1)
    (fun d out la nu ho hnu _ i _ => dual_nonneg hopt hopt' ho hnu i) h
  refine ⟨e, n, he, hn, fun pt hpt hh => ?_⟩
  have := hb pt hpt _ (unrelaxed hh)
  rwa [unrelaxed_sum, add_zero] at this

theorem close_zero {a b : ℝ} (h : Close 0 0 a b) : a = b := by
  rcases h with h | h | h
  · exact h
  · rw [zero_mul] at h; exact absurd h (not_lt.2 (abs_nonneg _))
  · exact absurd h (not_lt.2 (abs_nonneg _))

theorem shadow_exact_relaxed {feastol : ℝ} (hf : 0 ≤ feastol) {optimize : Data V ℝ → Except Err SolverOut}
    {cost : NMap V ℝ D} (hcc : TermsCanonical cost.terms) (hcne : cost.terms ≠ []) (hcpos : ∀ t ∈ cost.terms, 0 < t.2) {cons : List (Con V D)}
    {fixed : PyDict V ℝ} (hcons : ∀ c ∈ cons, ConOK c)
    (hwf : WF fixed) (hfix : ∀ v c, fixed.get? v = some c → 0 < c) {ord : Orders V ℝ} (hord : ord.Valid) (hal : CostAligned cost fixed ord)
    (hlate : ∀ c ∈ cons, ∀ u, c.unsubbed feastol = .ok u → ∀ n ∈ u, MergesLate n.hmap.terms (varlocKeys n.hmap.terms fixed))
    (hlen : ∀ d out l, optimize d = .ok out → out.dual = .la l → l.length = d.mIdxs.length ∨ l.length + 1 = d.mIdxs.length)
    {r : Result V} {ss : Senss V} (h : solveSens feastol 0 0 optimize cost cons fixed ord = .ok (r, ss, true)) :
    0 < r.cost ∧ ∀ pt : V → ℝ, (∀ v, 0 < pt v) → ∀ σs : List ℝ,
      List.Forall₂ (fun c σ => 0 < σ ∧ (σ = 1 ∨ c.NoConst fixed) ∧ Con.Holds σ pt c) cons σs →
      Real.log r.cost + shift fixed pt (sensAt ss.vars) ≤
        Real.log (termsVal pt cost.terms) + ((ss.cons.zip σs).map (fun p => lastSens p.1 * Real.log p.2)).sum := by
  obtain ⟨-, e, n, he, hn, hb⟩ := shadow_relaxed hf (le_refl 0) hcc hcne hcpos hcons hwf hfix hord hal hlate hlen (by
    intro d out la nu _ _ hchk i hi
    unfold checkSolution at hchk
    split at hchk
    · cases hchk
    · simp only [Bool.and_eq_true, Bool.not_eq_true'] at hchk
      obtain ⟨⟨⟨⟨⟨⟨c1, c2⟩, c3⟩, c4⟩, c5⟩, c6⟩, c7⟩ := hchk
      by_contra hlt
      have h1 : (List.range d.cs.length).any (fun i => decide (nu i < 0)) = true :=
        List.any_eq_true.2 ⟨i, List.mem_range.2 hi, by simpa using lt_of_not_ge hlt⟩
      rw [h1, Bool.true_and, List.any_eq_false] at c4
      have := c4 i (List.mem_range.2 hi)
      simp at this
      exact hlt this) h
  have he := close_zero he
  have hn := close_zero hn
  subst hn
  rw [← he, Real.log_exp]
  refine ⟨Real.exp_pos _, fun pt hpt σs hh => ?_⟩
  have := hb pt hpt σs hh
  rwa [zero_mul, sub_zero, one_mul] at this

theorem shadow_exact {feastol : ℝ} (hf : 0 ≤ feastol) {optimize : Data V ℝ → Except Err SolverOut}
    {cost : NMap V ℝ D} (hcc : TermsCanonical cost.terms) (hcne : cost.terms ≠ []) (hcpos : ∀ t ∈ cost.terms, 0 < t.2) {cons : List (Con V D)}
    {fixed : PyDict V ℝ} (hcons : ∀ c ∈ cons, ConOK c)
    (hwf : WF fixed) (hfix : ∀ v c, fixed.get? v = some c → 0 < c) {ord : Orders V ℝ} (hord : ord.Valid) (hal : CostAligned cost fixed ord)
    (hlate : ∀ c ∈ cons, ∀ u, c.unsubbed feastol = .ok u → ∀ n ∈ u, MergesLate n.hmap.terms (varlocKeys n.hmap.terms fixed))
    (hlen : ∀ d out l, optimize d = .ok out → out.dual = .la l → l.length = d.mIdxs.length ∨ l.length + 1 = d.mIdxs.length)
    {r : Result V} {ss : Senss V} (h : solveSens feastol 0 0 optimize cost cons fixed ord = .ok (r, ss, true)) :
    0 < r.cost ∧ ∀ pt : V → ℝ, (∀ v, 0 < pt v) → (∀ c ∈ cons, c.Holds 1 pt) →
      Real.log r.cost + shift fixed pt (sensAt ss.vars) ≤ Real.log (termsVal pt cost.terms) := by
  obtain ⟨h1, h2⟩ := shadow_exact_relaxed hf hcc hcne hcpos hcons hwf hfix hord hal hlate hlen h
  refine ⟨h1, fun pt hpt hh => ?_⟩
  have := h2 pt hpt _ (unrelaxed hh)
  rwa [unrelaxed_sum, add_zero] at this

/-- C77: if a solve returns without a warning from an exact check, the cost of every point that satisfies the constraints of the model, whatever values it has for the
constants, is at least the reported cost times, for every constant, the ratio of its values to the power of its sensitivity. Missing: as in `C77_bound_partial`. -/
theorem C77_exact_partial {feastol : ℝ} (hf : 0 ≤ feastol) {optimize : Data V ℝ → Except Err SolverOut}
    {cost : NMap V ℝ D} (hcc : TermsCanonical cost.terms) (hcne : cost.terms ≠ []) (hcpos : ∀ t ∈ cost.terms, 0 < t.2) {cons : List (Con V D)}
    {fixed : PyDict V ℝ} (hcons : ∀ c ∈ cons, ConOK c)
    (hwf : WF fixed) (hfix : ∀ v c, fixed.get? v = some c → 0 < c) {ord : Orders V ℝ} (hord : ord.Valid) (hal : CostAligned cost fixed ord)
    (hlate : ∀ c ∈ cons, ∀ u, c.unsubbed feastol = .ok u → ∀ n ∈ u, MergesLate n.hmap.terms (varlocKeys n.hmap.terms fixed))
    (hlen : ∀ d out l, optimize d = .ok out → out.dual = .la l → l.length = d.mIdxs.length ∨ l.length + 1 = d.mIdxs.length)
    {r : Result V} {ss : Senss V} (h : solveSens feastol 0 0 optimize cost cons fixed ord = .ok (r, ss, true)) (pt : V → ℝ) (hpt : ∀ v, 0 < pt v)
    (hh : ∀ c ∈ cons, c.Holds 1 pt) :
    r.cost * (fixed.map (fun p => (pt p.1 / p.2) ^ (sensAt ss.vars p.1))).prod ≤ termsVal pt cost.terms := by
  obtain ⟨h1, h2⟩ := shadow_exact hf hcc hcne hcpos hcons hwf hfix hord hal hlate hlen h
  have h3 := h2 pt hpt hh
  have hT : 0 < termsVal pt cost.terms := by
    unfold termsVal
    apply List.sum_pos
    · intro x hx
      obtain ⟨t, ht, rfl⟩ := List.mem_map.1 hx
      exact mul_pos (hcpos t ht) (monVal_pos hpt _)
    · simpa using hcne
  have hp : (fixed.map (fun p => (pt p.1 / p.2) ^ (sensAt ss.vars p.1))).prod = Real.exp (shift fixed pt (sensAt ss.vars)) := by
    unfold shift
    rw [Real.exp_list_sum, List.map_map]
    congr 1
    apply List.map_congr_left
    intro p hp
    have hpos := hfix p.1 p.2 ((mem_iff_get? hwf _ _).1 hp)
    simp only [Function.comp]
    rw [Real.rpow_def_of_pos (div_pos (hpt _) hpos), Real.log_div (hpt _).ne' hpos.ne', mul_comm]
  rw [hp, ← Real.log_le_log_iff (mul_pos h1 (Real.exp_pos _)) hT, Real.log_mul h1.ne' (Real.exp_pos _).ne', Real.log_exp]
  exact h3

theorem sum_one {d : PyDict V ℝ} (hd : WF d) {v : V} {c : ℝ} (hv : d.get? v = some c) (a : ℝ) : (d.map (fun p => if p.1 = v then a else 0)).sum = a := by
  have hmem : v ∈ d.map (·.1) := List.mem_map.2 ⟨(v, c), (mem_iff_get? hd _ _).2 hv, rfl⟩
  have hn := GP.wf_nodup.1 hd
  have : d.map (fun p => if p.1 = v then a else 0) = (d.map (·.1)).map (fun k => if k = v then a else 0) := by rw [List.map_map]; rfl
  rw [this]
  generalize d.map (·.1) = l at hmem hn
  induction l with
  | nil => cases hmem
  | cons k l ih =>
    rw [List.nodup_cons] at hn
    rw [List.map_cons, List.sum_cons]
    by_cases hk : k = v
    · rw [if_pos hk]
      have : (l.map (fun k => if k = v then a else 0)).sum = 0 := by
        apply List.sum_eq_zero
        intro x hx
        obtain ⟨q, hq, rfl⟩ := List.mem_map.1 hx
        rw [if_neg]
        rintro rfl
        exact hn.1 (hk ▸ hq)
      rw [this, add_zero]
    · rw [if_neg hk, zero_add]
      exact ih ((List.mem_cons.1 hmem).resolve_left (Ne.symm hk)) hn.2

/-- Logarithms of the costs of the points that satisfy the constraints and have the values of the constants. -/
def logCosts (cost : NMap V ℝ D) (cons : List (Con V D)) (fixed : PyDict V ℝ) : Set ℝ :=
  {y | ∃ pt : V → ℝ, (∀ v, 0 < pt v) ∧ Agrees pt fixed ∧ (∀ c ∈ cons, c.Holds 1 pt) ∧ y = Real.log (termsVal pt cost.terms)}

/-- C77, derivatives: if a solve returns without a warning from an exact check, the sensitivity of a constant is the derivative of the logarithm of the optimal cost with
respect to the logarithm of the constant, if that has a derivative. Missing: as in `C77_bound_partial`. -/
theorem C77_derivative_partial {optimize : Data V ℝ → Except Err SolverOut}
    {cost : NMap V ℝ D} (hcc : TermsCanonical cost.terms) (hcne : cost.terms ≠ []) (hcpos : ∀ t ∈ cost.terms, 0 < t.2) {cons : List (Con V D)}
    {fixed : PyDict V ℝ} (hcons : ∀ c ∈ cons, ConOK c)
    (hwf : WF fixed) (hfix : ∀ v c, fixed.get? v = some c → 0 < c) {ord : Orders V ℝ} (hord : ord.Valid) (hal : CostAligned cost fixed ord)
    (hlate : ∀ c ∈ cons, ∀ u, c.unsubbed 0 = .ok u → ∀ n ∈ u, MergesLate n.hmap.terms (varlocKeys n.hmap.terms fixed))
    (hlen : ∀ d out l, optimize d = .ok out → out.dual = .la l → l.length = d.mIdxs.length ∨ l.length + 1 = d.mIdxs.length)
    {r : Result V} {ss : Senss V} (h : solveSens 0 0 0 optimize cost cons fixed ord = .ok (r, ss, true)) {v : V} {c : ℝ} (hv : fixed.get? v = some c)
    {J : ℝ → ℝ} (hJ : ∀ᶠ s in nhds (Real.log c), IsGLB (logCosts cost cons (fixed.set v (Real.exp s))) (J s)) {d : ℝ} (hd : HasDerivAt J d (Real.log c)) :
    d = sensAt ss.vars v := by
  obtain ⟨h1, h2⟩ := shadow_exact (le_refl 0) hcc hcne hcpos hcons hwf hfix hord hal hlate hlen h
  have hc := hfix v c hv
  -- the bound along one constant
  have hlow : ∀ s j, IsGLB (logCosts cost cons (fixed.set v (Real.exp s))) j → Real.log r.cost + sensAt ss.vars v * (s - Real.log c) ≤ j := by
    intro s j hj
    refine hj.2 ?_
    rintro y ⟨pt, hpt, hag, hh, rfl⟩
    refine le_trans (le_of_eq ?_) (h2 pt hpt hh)
    congr 1
    have hz : ∀ p ∈ fixed, sensAt ss.vars p.1 * (Real.log (pt p.1) - Real.log p.2) = if p.1 = v then sensAt ss.vars v * (s - Real.log c) else 0 := by
      intro p hp
      have hg := (mem_iff_get? hwf _ _).1 hp
      by_cases hpv : p.1 = v
      · rw [if_pos hpv]
        rw [hpv] at hg ⊢
        rw [hv] at hg
        cases hg
        have := hag v (Real.exp s) (by rw [get?_set]; simp)
        rw [this, Real.log_exp]
      · rw [if_neg hpv]
        have := hag p.1 p.2 (by rw [get?_set]; simp [Ne.symm hpv, hg])
        rw [this, sub_self, mul_zero]
    unfold shift
    rw [List.map_congr_left hz]
    exact (sum_one hwf hv _).symm
  have hat : J (Real.log c) ≤ Real.log r.cost := by
    refine hJ.self_of_nhds.1 ?_
    rw [Real.exp_log hc]
    obtain ⟨f1, f2, f3⟩ := feasible_of_pos (le_refl 0) hcc hcne hcons hwf hfix hord (solveSens_ok h).1
    have hpos : ∀ w, 0 < (r.vars.get? w).getD 1 := by
      intro w
      cases hw : r.vars.get? w with
      | none => simp
      | some x => exact f2 w x hw
    obtain ⟨f4, f5⟩ := f3 (fun w => (r.vars.get? w).getD 1) hpos (fun w x hw => by simp [hw])
    refine ⟨_, hpos, ?_, ?_, congrArg Real.log (close_zero f5).symm⟩
    · intro w x hw
      have : fixed.get? w = some x := by
        rw [get?_set] at hw
        by_cases hwv : v = w
        · subst hwv
          simp at hw
          rw [hv, hw]
        · simpa [hwv] using hw
      show (r.vars.get? w).getD 1 = x
      rw [f1 w x this]
      rfl
    · intro k hk
      have := f4 k hk
      rwa [max_self, add_zero] at this
  have hmin : IsLocalMin (fun s => J s - sensAt ss.vars v * s) (Real.log c) := by
    filter_upwards [hJ] with s hs
    have := hlow s _ hs
    have h3 := hat
    linarith
  have hd2 : HasDerivAt (fun s => J s - sensAt ss.vars v * s) (d - sensAt ss.vars v) (Real.log c) := by
    have h5 : HasDerivAt (fun s : ℝ => sensAt ss.vars v * s) (sensAt ss.vars v) (Real.log c) := by
      simpa using (hasDerivAt_id (Real.log c)).const_mul (sensAt ss.vars v)
    exact hd.sub h5
  have := hmin.hasDerivAt_eq_zero hd2
  linarith

/-- C77, aligned costs: those of one term, and those without constants. -/
theorem C77_aligned {cost : NMap V ℝ D} (hcc : TermsCanonical cost.terms) (hcne : cost.terms ≠ []) {fixed : PyDict V ℝ} {ord : Orders V ℝ} (hord : ord.Valid)
    (h : (∃ t, cost.terms = [t]) ∨ ∀ t ∈ cost.terms, ∀ kx ∈ t.1.items, fixed.get? kx.1 = none) : CostAligned cost fixed ord := by
  intro h' hs pt hpt
  rcases h with ⟨t, ht⟩ | hfree
  · obtain ⟨t', ht'⟩ := sub_one ht hs
    have := (C06_sub_evaluates hcc hcne (hord _ _) hs pt).1
    rw [ht, ht'] at this
    rw [ht, ht']
    simp only [termsVal, List.map_cons, List.map_nil, List.sum_cons, List.sum_nil, add_zero] at this
    exact List.Forall₂.cons this.symm .nil
  · rw [sub_nothing hcc (hord _ _) hs hfree, List.forall₂_same]
    intro t ht
    congr 1
    unfold monVal
    congr 1
    apply List.map_congr_left
    intro kx hkx
    unfold override
    rw [hfree t ht kx hkx]
    rfl

theorem solveSens_intro {feastol tol abstol : ℝ} {optimize : Data V ℝ → Except Err SolverOut} {cost : NMap V ℝ D} {cons : List (Con V D)}
    {fixed : PyDict V ℝ} {ord : Orders V ℝ} {H : List (Hmap V ℝ)} {d : Data V ℝ} {out : SolverOut} {r : Result V} {la : List ℝ} {nu : Nat → ℝ}
    {vss : List (List (PyDict V ℝ × ℝ))}
    (hH : hmaps feastol cost cons fixed ord = .ok H) (hd : genLoop H = d) (ho : optimize d = .ok out) (hr : compileVars d out fixed = .ok r)
    (hn : generateNula d (vec out.primal) out.dual = some (la, nu)) (hc : checkSolution d r.cost (vec out.primal) nu la tol abstol = true)
    {l0 : ℝ} {ls : List ℝ} (hl : la = l0 :: ls) {n0 : List ℝ} {ns : List (List ℝ)} (hN : nuByPosy d nu = n0 :: ns)
    (hv : conSenss feastol fixed ord cons (ls.zip ns) = .ok vss) :
    solveSens feastol tol abstol optimize cost cons fixed ord = .ok (r, ⟨Sens.gather (Sens.costSens n0 cost.terms.keys) (vss.flatten.map (·.1)), vss.map (fun l => l.map (·.2))⟩, true) := by
  subst hd hl
  unfold solveSens generateResult compileSens
  simp only [hH, bind, Except.bind, ho, hr, hn, hc, hN, List.tail_cons, hv]
  rfl

/-- `a <= x`. -/
def aLeX : Con ℕ ℤ := .le false ⟨[(⟨[(1, 1)]⟩, 1)], none⟩ ⟨[(⟨[(0, 1)]⟩, 1)], none⟩

theorem aLeX_unsubbed : aLeX.unsubbed 0 = .ok [⟨⟨[(⟨[(1, 1), (0, -1)]⟩, 1)], none⟩, .monomial⟩] := by
  norm_num [aLeX, Con.unsubbed, genUnsubbed, UnitCache.ratio, renameTerms, renameStep, List.foldlM, PyDict.get?, PyDict.set, PyDict.del,
    bind, pure, Except.bind, Except.pure, HV.beq_def, List.isPerm, HV.sub, HV.add, HV.scale, dictAdd, dictAddStep, dictScale, HV.empty,
    simplifyPosyIneq, wrapForm, mkSig, NMap.anyNonpositive, Except.map]

theorem aLeX_form : asHmapslt1 0 [[(⟨[(1, 1), (0, -1)]⟩, 1)]] [(1, 1)] (fun h f => varlocs h f : Orders ℕ ℝ) {} =
    (.ok [[(⟨[(0, -1)]⟩, 1)]], ⟨some [[(0, 1)]], none, none⟩) := by
  norm_num [asHmapslt1, formStep, noteConst, checkForm, simplifyPosyIneq, mmap, mmapStep, dictScale, pyIndex, subState, subRound, subinplace, subInit, csUpdate, subAdd,
      varlocs, varlocKeys, PyDict.get?, PyDict.set, PyDict.del, PyDict.contains, PyDict.keys, HV.get?, HV.del, HV.empty, pwDom, pw_real, HV.beq_def, bind, pure,
      Except.bind, Except.pure, Except.map, List.foldlM, List.isPerm]

/-- The hypotheses of the C77 theorems can be met: minimising `x` with `a <= x` and `a = 1`; the sensitivity of `a` is 1. (`x` and `a` are 0 and 1.) -/
theorem aLeX_solved : ∃ (r : Result ℕ) (ss : Senss ℕ), solveSens 0 0 0 (fun _ => .ok ⟨1, [0], .nu (fun _ => 1)⟩) (⟨[(⟨[(0, 1)]⟩, 1)], none⟩ : NMap ℕ ℝ ℤ)
      [aLeX] [(1, 1)] (fun h f => varlocs h f) = .ok (r, ss, true) ∧ sensAt ss.vars 1 = 1 ∧ ss.cons = [[1]] := by
  have h1 : Con.hmaps 0 [(1, 1)] (fun h f => varlocs h f) aLeX = .ok [⟨[(⟨[(0, -1)]⟩, 1)], false⟩] := by
    unfold Con.hmaps
    rw [aLeX_unsubbed]
    simp only [bind, Except.bind, List.map_cons, List.map_nil, aLeX_form]
    rfl
  have h2 : hmaps 0 (⟨[(⟨[(0, 1)]⟩, 1)], none⟩ : NMap ℕ ℝ ℤ) [aLeX] [(1, 1)] (fun h f => varlocs h f) =
      .ok [⟨[(⟨[(0, 1)]⟩, 1)], false⟩, ⟨[(⟨[(0, -1)]⟩, 1)], false⟩] := by
    unfold hmaps
    rw [List.mapM_cons, List.mapM_nil, h1]
    norm_num [NMap.sub, subState, subInit, csUpdate, subAdd, varlocs, varlocKeys, PyDict.get?, PyDict.set, PyDict.contains, PyDict.keys, bind, Except.bind, pure, Except.pure,
      List.foldlM]
  have hg : genLoop ([⟨[(⟨[(0, 1)]⟩, 1)], false⟩, ⟨[(⟨[(0, -1)]⟩, 1)], false⟩] : List (Hmap ℕ ℝ)) =
      ⟨[(0, 1), (1, 2)], [0, 1], [1, 1], [⟨[(0, 1)]⟩, ⟨[(0, -1)]⟩], [(0, [0, 1])], [], [], []⟩ := by
    simp [genLoop, genStep, expStep, locAppend, PyDict.set, PyDict.get?]
  have h3 : conSenss 0 [(1, 1)] (fun h f => varlocs h f) [aLeX] [(1, [1])] = .ok [[([(1, 1), (0, -1)], 1)]] := by
    unfold conSenss
    rw [h1]
    simp only [bind, Except.bind, List.length_singleton, List.take_one, List.head?_cons, Option.toList, conSenss]
    unfold Con.senss
    rw [aLeX_unsubbed]
    simp only [bind, Except.bind, aLeX, aLeX_form]
    norm_num [leSenss, sensFromDual, liftNu, addShares, sensOfNu, Verif.addSens, PyDict.get?, PyDict.set, pure, Except.pure, Memo.constMmap]
  refine ⟨⟨1, [(0, Real.exp 0)], [(0, Real.exp 0), (1, 1)]⟩, _, solveSens_intro h2 hg rfl rfl rfl ?_ (l0 := 1) (ls := [1]) ?_ (n0 := [1]) (ns := [[1]]) ?_ h3, ?_, rfl⟩
  · simp [checkSolution, almostEqual, sliceSum, Data.A, Data.colEntries, Data.expOf, HV.get?, PyDict.get?, Coot.dot, Coot.tdot, Coot.ncols,
      dualNan, dualCost, List.range_succ, vec]
  · simp [sliceSum]
  · simp [nuByPosy]
  · rw [C41_gather (by simp [WF]), sensAt_costSens (by simp [WF, PyDict.keys])]
    norm_num [expo, HV.get?, PyDict.get?, sensAt, PyDict.keys]

/-- C77 is violated: minimising `a*x + 3*y` with `1 <= x`, `1 <= y` and `a = 1`. Putting in `a` makes the second term the first, so the sensitivity of `a` is 3/4 (it is
1/4): the check is passed without tolerances and the cost is 4, but with `a = 16` the cost is 19 at `x = y = 1`, less than `4 * 16 ** (3/4) = 32`. (`a`, `x`, `y` are 0, 1, 2.) -/
theorem C77_bound_fails : ∃ (r : Result ℕ) (ss : Senss ℕ) (pt : ℕ → ℝ),
    solveSens 0 0 0 (fun _ => .ok ⟨4, [0, 0], .nu (fun i => if i = 0 ∨ i = 3 then 3 / 4 else 1 / 4)⟩)
      (⟨[(⟨[(0, 1), (1, 1)]⟩, 1), (⟨[(2, 1)]⟩, 3)], none⟩ : NMap ℕ ℝ ℤ)
      [.le false ⟨[(HV.empty, 1)], none⟩ ⟨[(⟨[(1, 1)]⟩, 1)], none⟩, .le false ⟨[(HV.empty, 1)], none⟩ ⟨[(⟨[(2, 1)]⟩, 1)], none⟩] [(0, 1)]
      (fun h f => varlocs h f) = .ok (r, ss, true) ∧
    r.cost = 4 ∧ sensAt ss.vars 0 = 3 / 4 ∧ (∀ v, 0 < pt v) ∧ pt 0 = 16 ∧
    (∀ c ∈ ([.le false ⟨[(HV.empty, 1)], none⟩ ⟨[(⟨[(1, 1)]⟩, 1)], none⟩, .le false ⟨[(HV.empty, 1)], none⟩ ⟨[(⟨[(2, 1)]⟩, 1)], none⟩] : List (Con ℕ ℤ)), c.Holds 1 pt) ∧
    termsVal pt [(⟨[(0, 1), (1, 1)]⟩, 1), (⟨[(2, 1)]⟩, 3)] < r.cost * (pt 0 / 1) ^ (sensAt ss.vars 0) := by
  have hun : ∀ v : ℕ, Con.unsubbed 0 (.le false ⟨[(HV.empty, 1)], none⟩ ⟨[(⟨[(v, 1)]⟩, 1)], none⟩ : Con ℕ ℤ) = .ok [⟨⟨[(⟨[(v, -1)]⟩, 1)], none⟩, .monomial⟩] := by
    intro v
    norm_num [Con.unsubbed, genUnsubbed, UnitCache.ratio, renameTerms, renameStep, List.foldlM, PyDict.get?, PyDict.set, PyDict.del,
      bind, pure, Except.bind, Except.pure, HV.beq_def, List.isPerm, HV.sub, HV.add, HV.scale, dictAdd, dictAddStep, dictScale, HV.empty,
      simplifyPosyIneq, wrapForm, mkSig, NMap.anyNonpositive, Except.map]
  have hform : ∀ v : ℕ, v ≠ 0 → asHmapslt1 0 [[(⟨[(v, -1)]⟩, 1)]] [(0, 1)] (fun h f => varlocs h f : Orders ℕ ℝ) {} =
      (.ok [[(⟨[(v, -1)]⟩, 1)]], ⟨some [[(0, 1)]], none, none⟩) := by
    intro v hv
    norm_num [asHmapslt1, formStep, noteConst, checkForm, simplifyPosyIneq, mmap, mmapStep, dictScale, pyIndex, subState, subRound, subinplace, subInit, csUpdate, subAdd,
      varlocs, varlocKeys, PyDict.get?, PyDict.set, PyDict.del, PyDict.contains, PyDict.keys, HV.get?, HV.del, HV.empty, pwDom, pw_real, HV.beq_def, bind, pure,
      Except.bind, Except.pure, Except.map, List.foldlM, List.isPerm, Ne.symm hv]
  have hcon : ∀ v : ℕ, v ≠ 0 → Con.hmaps 0 [(0, 1)] (fun h f => varlocs h f) (.le false ⟨[(HV.empty, 1)], none⟩ ⟨[(⟨[(v, 1)]⟩, 1)], none⟩ : Con ℕ ℤ) =
      .ok [⟨[(⟨[(v, -1)]⟩, 1)], false⟩] := by
    intro v hv
    unfold Con.hmaps
    rw [hun]
    simp only [bind, Except.bind, List.map_cons, List.map_nil, hform v hv]
    rfl
  have hsens : ∀ v : ℕ, v ≠ 0 → ∀ x : ℝ, x ≠ 0 → Con.senss 0 [(0, 1)] (fun h f => varlocs h f)
      (.le false ⟨[(HV.empty, 1)], none⟩ ⟨[(⟨[(v, 1)]⟩, 1)], none⟩ : Con ℕ ℤ) [(x, [x])] = .ok [([(v, -x)], x)] := by
    intro v hv x hx
    unfold Con.senss
    rw [hun]
    simp only [bind, Except.bind, hform v hv]
    norm_num [leSenss, sensFromDual, liftNu, addShares, sensOfNu, Verif.addSens, PyDict.get?, PyDict.set, pure, Except.pure, Memo.constMmap]
  have h3 : conSenss 0 [(0, 1)] (fun h f => varlocs h f)
      [(.le false ⟨[(HV.empty, 1)], none⟩ ⟨[(⟨[(1, 1)]⟩, 1)], none⟩ : Con ℕ ℤ), .le false ⟨[(HV.empty, 1)], none⟩ ⟨[(⟨[(2, 1)]⟩, 1)], none⟩]
      [(1 / 4, [1 / 4]), (3 / 4, [3 / 4])] = .ok [[([(1, -(1 / 4))], 1 / 4)], [([(2, -(3 / 4))], 3 / 4)]] := by
    simp only [conSenss, hcon 1 one_ne_zero, hcon 2 two_ne_zero, bind, Except.bind, List.length_singleton, List.take_one, List.head?_cons, Option.toList, List.drop_one,
      List.tail_cons, hsens 1 one_ne_zero _ (by norm_num : (1 / 4 : ℝ) ≠ 0), hsens 2 two_ne_zero _ (by norm_num : (3 / 4 : ℝ) ≠ 0)]
    rfl
  have hcost : NMap.sub (⟨[(⟨[(0, 1), (1, 1)]⟩, 1), (⟨[(2, 1)]⟩, 3)], none⟩ : NMap ℕ ℝ ℤ) [(0, 1)]
      (varlocs [(⟨[(0, 1), (1, 1)]⟩, 1), (⟨[(2, 1)]⟩, 3)] [(0, 1)]) = .ok ⟨[(⟨[(2, 1)]⟩, 3), (⟨[(1, 1)]⟩, 1)], none⟩ := by
    norm_num [NMap.sub, subState, subRound, subinplace, subInit, csUpdate, subAdd, varlocs, varlocKeys, PyDict.get?, PyDict.set, PyDict.del, PyDict.contains,
      PyDict.keys, HV.get?, HV.del, HV.empty, pwDom, pw_real, HV.beq_def, bind, pure, Except.bind, Except.pure, List.foldlM, List.isPerm]
  have h2 : hmaps 0 (⟨[(⟨[(0, 1), (1, 1)]⟩, 1), (⟨[(2, 1)]⟩, 3)], none⟩ : NMap ℕ ℝ ℤ)
      [.le false ⟨[(HV.empty, 1)], none⟩ ⟨[(⟨[(1, 1)]⟩, 1)], none⟩, .le false ⟨[(HV.empty, 1)], none⟩ ⟨[(⟨[(2, 1)]⟩, 1)], none⟩] [(0, 1)] (fun h f => varlocs h f) =
      .ok [⟨[(⟨[(2, 1)]⟩, 3), (⟨[(1, 1)]⟩, 1)], false⟩, ⟨[(⟨[(1, -1)]⟩, 1)], false⟩, ⟨[(⟨[(2, -1)]⟩, 1)], false⟩] := by
    unfold hmaps
    rw [List.mapM_cons, List.mapM_cons, List.mapM_nil, hcon 1 one_ne_zero, hcon 2 two_ne_zero, hcost]
    norm_num [bind, Except.bind, pure, Except.pure]
  have hg : genLoop ([⟨[(⟨[(2, 1)]⟩, 3), (⟨[(1, 1)]⟩, 1)], false⟩, ⟨[(⟨[(1, -1)]⟩, 1)], false⟩, ⟨[(⟨[(2, -1)]⟩, 1)], false⟩] : List (Hmap ℕ ℝ)) =
      ⟨[(0, 2), (2, 3), (3, 4)], [0, 0, 1, 2], [3, 1, 1, 1], [⟨[(2, 1)]⟩, ⟨[(1, 1)]⟩, ⟨[(1, -1)]⟩, ⟨[(2, -1)]⟩], [(2, [0, 3]), (1, [1, 2])], [], [], []⟩ := by
    simp [genLoop, genStep, expStep, locAppend, PyDict.set, PyDict.get?]
  have hh := solveSens_intro (optimize := fun _ => .ok ⟨4, [0, 0], .nu (fun i => if i = 0 ∨ i = 3 then 3 / 4 else 1 / 4)⟩) (tol := 0) (abstol := 0) h2 hg rfl
    (r := ⟨4, [(2, Real.exp 0), (1, Real.exp 0)], [(2, Real.exp 0), (1, Real.exp 0), (0, 1)]⟩) rfl rfl ?_ (l0 := 1) (ls := [1 / 4, 3 / 4]) ?_ (n0 := [3 / 4, 1 / 4]) (ns := [[1 / 4], [3 / 4]]) ?_ h3
  have hss : sensAt (Sens.gather (Sens.costSens [3 / 4, 1 / 4] [⟨[(0, 1), (1, 1)]⟩, ⟨[(2, 1)]⟩]) [[(1, -(1 / 4))], [(2, -(3 / 4))]]) 0 = (3 / 4 : ℝ) := by
    rw [C41_gather (by simp [WF]), sensAt_costSens (by simp [WF])]
    norm_num [expo, HV.get?, PyDict.get?, sensAt]
  refine ⟨_, _, fun v => if v = 0 then 16 else 1, hh, rfl, hss, ?_, rfl, ?_, ?_⟩
  · intro v
    show (0 : ℝ) < if v = 0 then 16 else 1
    split <;> norm_num
  · intro c hc
    simp only [List.mem_cons, List.not_mem_nil, or_false] at hc
    rcases hc with rfl | rfl <;> norm_num [Con.Holds, physVal, termsVal, monVal, unitScale, HV.empty]
  · have h16 : (16 : ℝ) ^ (3 / 4 : ℝ) = 8 := by
      rw [show (16 : ℝ) = 2 ^ (4 : ℝ) by norm_num, ← Real.rpow_mul (by norm_num)]
      norm_num
    have hkeys : (PyDict.keys ([(⟨[(0, 1), (1, 1)]⟩, 1), (⟨[(2, 1)]⟩, 3)] : PyDict (HV ℕ ℝ) ℝ)) = [⟨[(0, 1), (1, 1)]⟩, ⟨[(2, 1)]⟩] := rfl
    have hss' : sensAt (Sens.gather (Sens.costSens [3 / 4, 1 / 4] [⟨[(0, 1), (1, 1)]⟩, ⟨[(2, 1)]⟩])
        (([[([(1, -(1 / 4))], 1 / 4)], [([(2, -(3 / 4))], 3 / 4)]] : List (List (PyDict ℕ ℝ × ℝ))).flatten.map (·.1))) 0 = (3 / 4 : ℝ) := hss
    rw [hkeys, hss']
    norm_num [termsVal, monVal, h16]
  · have hr : List.range' 0 2 = [0, 1] := rfl
    have h4 : Real.exp (3 / 4 * (Real.log 3 - Real.log (3 / 4)) + -(1 / 4 * Real.log (1 / 4))) = 4 := by
      rw [Real.log_div (by norm_num) (by norm_num), one_div, Real.log_inv]
      rw [show (3 / 4 * (Real.log 3 - (Real.log 3 - Real.log 4)) + -(4⁻¹ * -Real.log 4)) = Real.log 4 by ring]
      exact Real.exp_log (by norm_num)
    norm_num [hr, h4, checkSolution, almostEqual, sliceSum, Data.A, Data.colEntries, Data.expOf, HV.get?, PyDict.get?, Coot.dot, Coot.tdot, Coot.ncols,
      dualNan, dualCost, List.range_succ, vec]
  · norm_num [sliceSum, List.range']
  · norm_num [nuByPosy, List.range']

/-- The C77 theorems applied to the model of `aLeX_solved`: for every `a` and `x` with `a <= x`, `a <= x` follows. -/
example (pt : ℕ → ℝ) (hpt : ∀ v, 0 < pt v) (h : aLeX.Holds 1 pt) : pt 1 ≤ pt 0 := by
  obtain ⟨r, ss, h1, h2, -⟩ := aLeX_solved
  have hcc : TermsCanonical ([(⟨[(0, 1)]⟩, 1)] : PyDict (HV ℕ ℝ) ℝ) := by constructor <;> simp [ExpCanonical]
  have hok : ConOK aLeX := by
    refine ⟨.inl rfl, ?_, by simp, ⟨[(0, 1)]⟩, 1, rfl, by simp [ExpCanonical], one_pos, by simp [UnitOK, unitScale], by simp [UnitOK, unitScale], ?_⟩
    · constructor <;> simp [ExpCanonical]
    · simp [NoClash]
  have hc : r.cost = 1 := by
    obtain ⟨-, H, out, la, nu, -, ho, -, -⟩ := solveSens_ok h1
    obtain ⟨H, out, la, nu, -, ho, -, hr, -, -⟩ := solve_ok (solveSens_ok h1).1
    cases ho
    rw [hr]
  have := C77_exact_partial (le_refl 0) hcc (by simp) (by simp) (by simpa using hok) (by simp [WF])
    (by intro v c hv; simp only [PyDict.get?] at hv; split at hv <;> cases hv; exact one_pos) varlocs_valid (C77_aligned hcc (by simp) varlocs_valid (.inl ⟨_, rfl⟩))
    (by
      intro c hc u hu n hn t1 ht1 t2 ht2 hne
      rw [List.mem_singleton] at hc
      subst hc
      rw [aLeX_unsubbed] at hu
      cases hu
      rw [List.mem_singleton] at hn
      subst hn
      simp only [List.mem_singleton] at ht1 ht2
      exact absurd (by rw [ht1, ht2]) hne)
    (by intro d out l ho hd; cases ho; cases hd) h1 pt hpt (by simpa using h)
  rw [hc, one_mul] at this
  simpa [h2, termsVal, monVal] using this

end
end Verif
