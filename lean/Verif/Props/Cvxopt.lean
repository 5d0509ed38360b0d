import Verif.Lemmas.Cvxopt
import Verif.Props.Program
import Mathlib.Tactic.NormNum

/-! # C38: the cvxopt interface -/

set_option linter.unusedSectionVars false

namespace Verif
open GP Cvxopt
variable {V : Type} [DecidableEq V]

/-- The posynomials of a program: the cost, then those of the constraints in order. -/
noncomputable def progMaps (cost : List (HV V ℝ × ℝ)) (cons : List (Con V)) : List (Hmap V ℝ) :=
  ⟨cost, false⟩ :: cons.flatMap hmaps

/-- The index lists for a program. -/
noncomputable def progSplit (cost : List (HV V ℝ × ℝ)) (cons : List (Con V)) (useLeqs : Bool) : Split :=
  let d := genLoop (progMaps cost cons)
  split (ks (progMaps cost cons)) d.meqAll d.firstHalf useLeqs

/-- The arguments given to cvxopt for a program. -/
noncomputable def progArgs (cost : List (HV V ℝ × ℝ)) (cons : List (Con V)) (useLeqs : Bool) (maxcol : Nat) : Prob :=
  let d := genLoop (progMaps cost cons)
  build d.cs d.A (ks (progMaps cost cons)) (progSplit cost cons useLeqs) maxcol

theorem start_lt {H : List (Hmap V ℝ)} (hne : ∀ h ∈ H, h.terms ≠ []) {p q : Nat} (hpq : p < q) (hq : q ≤ H.length) :
    start H p < start H q := by
  induction q with
  | zero => omega
  | succ q ih =>
    have hqH : q < H.length := by omega
    have h1 : start H (q + 1) = start H q + H[q].terms.length := by
      unfold start
      rw [List.take_add_one, List.getElem?_eq_getElem hqH, Option.toList_some, List.map_append, List.sum_append]
      simp
    have h2 : 0 < H[q].terms.length := List.length_pos_iff.2 (hne _ (List.getElem_mem hqH))
    rcases Nat.lt_or_ge p q with h | h
    · have := ih h (by omega); omega
    · have : p = q := by omega
      subst this; omega

theorem start_inj {H : List (Hmap V ℝ)} (hne : ∀ h ∈ H, h.terms ≠ []) {p q : Nat} (hp : p < H.length) (hq : q < H.length)
    (h : start H p = start H q) : p = q := by
  rcases Nat.lt_trichotomy p q with hh | hh | hh
  · have := start_lt hne hh (by omega); omega
  · exact hh
  · have := start_lt hne hh (by omega); omega

/-- The posynomials of a well-formed program. -/
theorem prog_ok {cost : List (HV V ℝ × ℝ)} {cons : List (Con V)} (h0 : (Con.ineq cost).OK) (hc : ∀ c ∈ cons, c.OK) :
    ∀ h ∈ progMaps cost cons, h.terms ≠ [] ∧ (∀ t ∈ h.terms, 0 < t.2 ∧ (t.1.items.map (·.1)).Nodup) ∧
      (h.fromMeq = true → h.terms.length = 1) := by
  intro h hh
  rcases List.mem_cons.1 hh with rfl | hh
  · exact ⟨h0.1, h0.2, by simp⟩
  · obtain ⟨c, hcm, hh⟩ := List.mem_flatMap.1 hh
    have := hc c hcm
    cases c with
    | ineq ts =>
      simp only [hmaps, List.mem_singleton] at hh
      subst hh
      exact ⟨this.1, this.2, by simp⟩
    | eq e e' c =>
      obtain ⟨a1, a2, a3, _⟩ := this
      simp only [hmaps, List.mem_cons, List.not_mem_nil, or_false] at hh
      rcases hh with rfl | rfl
      · exact ⟨by simp, by simpa using ⟨a1, a2⟩, by simp⟩
      · exact ⟨by simp, by simpa using ⟨a1, a3⟩, by simp⟩

section
variable {cost : List (HV V ℝ × ℝ)} {cons : List (Con V)} (h0 : (Con.ineq cost).OK) (hc : ∀ c ∈ cons, c.OK) (u : Bool)
include h0 hc

theorem ks_take_sum (H : List (Hmap V ℝ)) (p : Nat) : ((ks H).take p).sum = start H p := by
  unfold ks start; rw [List.map_take]

theorem ks_get (H : List (Hmap V ℝ)) (p : Nat) (hp : p < H.length) : ((ks H)[p]?).getD 0 = H[p].terms.length := by
  unfold ks; rw [List.getElem?_map, List.getElem?_eq_getElem hp]; rfl

theorem prog_isEq (p : Nat) (hp : p < (progMaps cost cons).length) :
    isEq (ks (progMaps cost cons)) (genLoop (progMaps cost cons)).meqAll u p = (u && (progMaps cost cons)[p].fromMeq) := by
  set H := progMaps cost cons with hH
  have ok := prog_ok h0 hc
  obtain ⟨_, _, _, h4, _⟩ := gen_meq H (fun h hh _ => (ok h hh).1)
  unfold isEq
  congr 1
  rw [ks_take_sum h0 hc]
  cases hf : H[p].fromMeq with
  | true =>
    rw [decide_eq_true_iff, h4]
    exact ⟨p, H[p], List.getElem?_eq_getElem hp, hf, rfl⟩
  | false =>
    rw [decide_eq_false_iff_not, h4]
    rintro ⟨q, h, hq, hm, hs⟩
    have hql : q < H.length := by
      by_contra hh; rw [List.getElem?_eq_none (by omega)] at hq; cases hq
    have := start_inj (fun h hh => (ok h hh).1) hql hp hs
    subst this
    rw [List.getElem?_eq_getElem hql, Option.some.injEq] at hq
    rw [hq, hm] at hf; cases hf

theorem prog_isLeq (p : Nat) (hp : p < (progMaps cost cons).length) :
    isLeq (ks (progMaps cost cons)) (genLoop (progMaps cost cons)).meqAll (genLoop (progMaps cost cons)).firstHalf u p
      = (u && (progMaps cost cons)[p].fromMeq && decide (((progMaps cost cons).take p).countP (·.fromMeq) % 2 = 0)) := by
  set H := progMaps cost cons with hH
  have ok := prog_ok h0 hc
  obtain ⟨_, _, _, _, h5⟩ := gen_meq H (fun h hh _ => (ok h hh).1)
  unfold isLeq
  rw [prog_isEq h0 hc u p hp, ks_take_sum h0 hc, List.countP_eq_length_filter]
  cases hf : H[p].fromMeq with
  | false => simp
  | true =>
    congr 1
    apply decide_eq_decide.2
    rw [h5]
    constructor
    · rintro ⟨q, h, hq, hm, hs, he⟩
      have hql : q < H.length := by
        by_contra hh; rw [List.getElem?_eq_none (by omega)] at hq; cases hq
      have := start_inj (fun h hh => (ok h hh).1) hql hp hs
      subst this
      exact he
    · intro he
      exact ⟨p, H[p], List.getElem?_eq_getElem hp, hf, rfl, he⟩

theorem prog_isEq' (p : Nat) (h : Hmap V ℝ) (hp : (progMaps cost cons)[p]? = some h) :
    isEq (ks (progMaps cost cons)) (genLoop (progMaps cost cons)).meqAll u p = (u && h.fromMeq) := by
  have hpl : p < (progMaps cost cons).length := by
    by_contra hh; rw [List.getElem?_eq_none (by omega)] at hp; cases hp
  rw [List.getElem?_eq_getElem hpl, Option.some.injEq] at hp
  rw [prog_isEq h0 hc u p hpl, hp]

theorem prog_isLeq' (p : Nat) (h : Hmap V ℝ) (hp : (progMaps cost cons)[p]? = some h) :
    isLeq (ks (progMaps cost cons)) (genLoop (progMaps cost cons)).meqAll (genLoop (progMaps cost cons)).firstHalf u p
      = (u && h.fromMeq && decide (((progMaps cost cons).take p).countP (·.fromMeq) % 2 = 0)) := by
  have hpl : p < (progMaps cost cons).length := by
    by_contra hh; rw [List.getElem?_eq_none (by omega)] at hp; cases hp
  rw [List.getElem?_eq_getElem hpl, Option.some.injEq] at hp
  rw [prog_isLeq h0 hc u p hpl, hp]

/-- What the arguments of cvxopt evaluate to, by position of the posynomials. -/
theorem prog_values (mc : Nat) (pt : V → ℝ) (hpt : ∀ v, 0 < pt v) (y : Nat → ℝ)
    (hy : ∀ j v, ((genLoop (progMaps cost cons)).varlocs.map (·.1))[j]? = some v → y j = Real.log (pt v))
    (B : Nat → ℝ) (hB : ∀ p h, (progMaps cost cons)[p]? = some h → B p = termsVal pt h.terms) :
    blockSums (progArgs cost cons u mc).K (expRows (progArgs cost cons u mc).F (progArgs cost cons u mc).g y)
      = (progSplit cost cons u).lsePosys.map B ∧
    residuals (progArgs cost cons u mc).G (progArgs cost cons u mc).h y
      = (progSplit cost cons u).linPosys.map (fun p => Real.log (B p)) ∧
    residuals (progArgs cost cons u mc).A (progArgs cost cons u mc).b y
      = (progSplit cost cons u).leqPosys.map (fun p => Real.log (B p)) := by
  have ok := prog_ok h0 hc
  have hisLeq := prog_isLeq h0 hc u
  unfold progArgs progSplit split build
  dsimp only
  set H := progMaps cost cons with hH
  set d := genLoop H with hd
  rw [split_eq]
  dsimp only
  set n := (ks H).length with hn
  have hnH : n = H.length := by rw [hn]; simp [ks]
  rw [expRows_select, residuals_select, residuals_select]
  set lc : Nat → ℝ := fun m => Real.log ((d.cs[m]?).getD 0) with hlc
  have hcs : d.cs = (allTerms H).map (·.2) := by rw [hd, gen_cs]
  have hcpos : ∀ p (hp : p < H.length), ∀ m ∈ mons (ks H) p, 0 < (d.cs[m]?).getD 0 := by
    intro p hp m hm
    unfold mons at hm
    rw [ks_take_sum h0 hc, ks_get h0 hc H p hp, List.mem_range'_1] at hm
    have hle := start_le (List.getElem?_eq_getElem hp)
    have hlt : m < (allTerms H).length := by omega
    rw [hcs, List.getElem?_map, List.getElem?_eq_getElem hlt]
    obtain ⟨h, hh, ht⟩ := List.mem_flatMap.1 (List.getElem_mem hlt)
    exact ((ok h hh).2.1 _ ht).1
  have hsum : ∀ p, p < H.length → ((mons (ks H) p).map (fun m => Real.exp (rowDot d.A y m + lc m))).sum = B p := by
    intro p hp
    obtain ⟨a, b, e1, e2, _, _, _, _, e3⟩ := C20_blocks H (fun h hh t ht => ((ok h hh).2.1 t ht).2) pt hpt y hy p H[p]
      (List.getElem?_eq_getElem hp)
    rw [gen_mIdxs, List.getElem?_eq_getElem hp] at e1
    simp only [Option.map_some, Option.some.injEq, Prod.mk.injEq] at e1
    obtain ⟨rfl, rfl⟩ := e1
    rw [hB p _ (List.getElem?_eq_getElem hp), e3]
    have hm : mons (ks H) p = List.range' (start H p) (start H p + H[p].terms.length - start H p) := by
      unfold mons; rw [ks_take_sum h0 hc, ks_get h0 hc H p hp]; simp
    rw [← hm]
    congr 1
    apply List.map_congr_left
    intro m hmm
    rw [Real.exp_add, Real.exp_log (hcpos p hp m hmm)]; ring
  have hone : ∀ ps : List Nat, (∀ p ∈ ps, p < H.length ∧ H[p]?.map (fun h => h.terms.length) = some 1) →
      (ps.flatMap (mons (ks H))).map (fun m => rowDot d.A y m + lc m) = ps.map (fun p => Real.log (B p)) := by
    intro ps
    induction ps with
    | nil => intro _; rfl
    | cons p ps ih =>
      intro hps
      obtain ⟨hp, hl⟩ := hps p (by simp)
      rw [List.getElem?_eq_getElem hp, Option.map_some, Option.some.injEq] at hl
      have hm : mons (ks H) p = [start H p] := by
        unfold mons; rw [ks_take_sum h0 hc, ks_get h0 hc H p hp, hl]; rfl
      have hs := hsum p hp
      rw [hm] at hs
      simp only [List.map_cons, List.map_nil, List.sum_cons, List.sum_nil, add_zero] at hs
      rw [List.flatMap_cons, List.map_append, ih (fun q hq => hps q (by simp [hq])), hm, List.map_cons (l := ps), ← hs, Real.log_exp]
      rfl
  refine ⟨?_, ?_, ?_⟩
  · rw [List.map_flatMap, blockSums_flatMap _ _ _ (by
      intro p _
      rw [List.length_map]; unfold mons; rw [List.length_range'])]
    apply List.map_congr_left
    intro p hp
    rw [List.mem_filter, List.mem_range, hnH] at hp
    exact hsum p hp.1
  · apply hone
    intro p hp
    rw [List.mem_filter, List.mem_range, hnH] at hp
    refine ⟨hp.1, ?_⟩
    have := hp.2
    unfold isLin at this
    simp only [Bool.and_eq_true, decide_eq_true_eq] at this
    have := this.2.2
    rw [ks_get h0 hc H p hp.1] at this
    rw [List.getElem?_eq_getElem hp.1, Option.map_some, this]
  · apply hone
    intro p hp
    rw [List.mem_filter, List.mem_range, hnH] at hp
    refine ⟨hp.1, ?_⟩
    have h2 := hp.2
    rw [hisLeq p hp.1] at h2
    simp only [Bool.and_eq_true] at h2
    rw [List.getElem?_eq_getElem hp.1, Option.map_some, (ok _ (List.getElem_mem hp.1)).2.2 h2.1.2]

theorem prog_lsePosys : ∃ rest, (progSplit cost cons u).lsePosys = 0 :: rest ∧
    ∀ p, p ∈ rest ↔ 1 ≤ p ∧ p ∈ (progSplit cost cons u).lsePosys := by
  have h00 : isLse (ks (progMaps cost cons)) (genLoop (progMaps cost cons)).meqAll u 0 = true := by
    unfold isLse
    rw [prog_isEq h0 hc u 0 (by simp [progMaps])]
    simp [progMaps]
  unfold progSplit split
  dsimp only
  rw [split_eq]
  dsimp only
  have hlen : (ks (progMaps cost cons)).length = (cons.flatMap hmaps).length + 1 := by simp [ks, progMaps]
  rw [hlen, List.range_succ_eq_map, List.filter_cons_of_pos h00]
  refine ⟨_, rfl, ?_⟩
  intro p
  constructor
  · intro hp
    refine ⟨?_, List.mem_cons_of_mem _ hp⟩
    obtain ⟨q, _, rfl⟩ := List.mem_map.1 (List.mem_filter.1 hp).1
    omega
  · rintro ⟨h1, h2⟩
    rcases List.mem_cons.1 h2 with rfl | h2
    · omega
    · exact h2

end

/-- **C38.** The objective given to cvxopt is the logarithm of the cost, and a point is feasible for what is given to cvxopt exactly if
it satisfies every constraint of the program, with or without separate treatment of equalities. -/
theorem C38_program (cost : List (HV V ℝ × ℝ)) (cons : List (Con V)) (h0 : (Con.ineq cost).OK) (hc : ∀ c ∈ cons, c.OK)
    (u : Bool) (mc : Nat) (pt : V → ℝ) (hpt : ∀ v, 0 < pt v) (y : Nat → ℝ)
    (hy : ∀ j v, ((genLoop (progMaps cost cons)).varlocs.map (·.1))[j]? = some v → y j = Real.log (pt v)) :
    let P := progArgs cost cons u mc
    (blockSums P.K (expRows P.F P.g y)).head? = some (termsVal pt cost) ∧
    (((∀ s ∈ (blockSums P.K (expRows P.F P.g y)).tail, Real.log s ≤ 0) ∧ (∀ r ∈ residuals P.G P.h y, r ≤ 0) ∧
        (∀ r ∈ residuals P.A P.b y, r = 0)) ↔ ∀ c ∈ cons, c.Sat pt) := by
  intro P
  have ok := prog_ok h0 hc
  set H := progMaps cost cons with hH
  set B : Nat → ℝ := fun p => ((H[p]?).map (fun h => termsVal pt h.terms)).getD 0 with hBdef
  have hB : ∀ p h, H[p]? = some h → B p = termsVal pt h.terms := by
    intro p h hp; rw [hBdef]; simp only [hp]; rfl
  obtain ⟨v1, v2, v3⟩ := prog_values h0 hc u mc pt hpt y hy B hB
  obtain ⟨rest, r1, r2⟩ := prog_lsePosys h0 hc u
  have hBpos : ∀ p, p < H.length → 0 < B p := by
    intro p hp
    rw [hB p _ (List.getElem?_eq_getElem hp)]
    have hh := ok _ (List.getElem_mem hp)
    unfold termsVal
    apply List.sum_pos
    · intro x hx
      obtain ⟨t, ht, rfl⟩ := List.mem_map.1 hx
      exact mul_pos (hh.2.1 t ht).1 (monVal_pos hpt _)
    · simpa using hh.1
  have hlog : ∀ p, p < H.length → (Real.log (B p) ≤ 0 ↔ B p ≤ 1) := by
    intro p hp
    rw [← Real.log_one, Real.log_le_log_iff (hBpos p hp) one_pos]
  have hlog0 : ∀ p, p < H.length → (Real.log (B p) = 0 ↔ B p = 1) := by
    intro p hp
    constructor
    · intro h; exact Real.eq_one_of_pos_of_log_eq_zero (hBpos p hp) h
    · intro h; rw [h, Real.log_one]
  show (blockSums P.K (expRows P.F P.g y)).head? = _ ∧ _
  rw [v1, v2, v3, r1]
  refine ⟨?_, ?_⟩
  · rw [List.map_cons, List.head?_cons, hB 0 ⟨cost, false⟩ (by rw [hH]; rfl)]
  rw [List.map_cons, List.tail_cons]
  simp only [List.forall_mem_map]
  -- membership in the lists
  have hsp : progSplit cost cons u = _ := split_eq (ks H) (genLoop H).meqAll (genLoop H).firstHalf u (ks H).length
  have hkl : (ks H).length = H.length := by simp [ks]
  have mlse : ∀ p, p ∈ (progSplit cost cons u).lsePosys ↔ p < H.length ∧
      isLse (ks H) (genLoop H).meqAll u p = true := by
    intro p; rw [hsp, hkl]; simp [List.mem_filter]
  have mlin : ∀ p, p ∈ (progSplit cost cons u).linPosys ↔ p < H.length ∧
      isLin (ks H) (genLoop H).meqAll u p = true := by
    intro p; rw [hsp, hkl]; simp [List.mem_filter]
  have mleq : ∀ p, p ∈ (progSplit cost cons u).leqPosys ↔ p < H.length ∧
      isLeq (ks H) (genLoop H).meqAll (genLoop H).firstHalf u p = true := by
    intro p; rw [hsp, hkl]; simp [List.mem_filter]
  have hsplit : ((∀ p ∈ rest, Real.log (B p) ≤ 0) ∧ (∀ p ∈ (progSplit cost cons u).linPosys, Real.log (B p) ≤ 0) ∧
        (∀ p ∈ (progSplit cost cons u).leqPosys, Real.log (B p) = 0)) ↔
      ∀ p h, 1 ≤ p → H[p]? = some h →
        (h.fromMeq = false → termsVal pt h.terms ≤ 1) ∧
        (h.fromMeq = true → (H.take p).countP (·.fromMeq) % 2 = 0 →
          if u then termsVal pt h.terms = 1 else termsVal pt h.terms ≤ 1) ∧
        (h.fromMeq = true → (H.take p).countP (·.fromMeq) % 2 = 1 →
          if u then True else termsVal pt h.terms ≤ 1) := by
    constructor
    · rintro ⟨a1, a2, a3⟩ p h hp hh
      have hpl : p < H.length := by
        by_contra hn; rw [List.getElem?_eq_none (by omega)] at hh; cases hh
      have heq := prog_isEq' h0 hc u p h hh
      rw [← hH] at heq
      have hne : (u && h.fromMeq) = false → termsVal pt h.terms ≤ 1 := by
        intro hf
        rw [hf] at heq
        rw [← hB p h hh, ← hlog p hpl]
        cases hd : (decide (p ≠ 0) && decide (((ks H)[p]?).getD 0 = 1)) with
        | true => exact a2 p ((mlin p).2 ⟨hpl, by unfold isLin; rw [heq, hd]; rfl⟩)
        | false => exact a1 p ((r2 p).2 ⟨hp, (mlse p).2 ⟨hpl, by unfold isLse; rw [heq, hd]; rfl⟩⟩)
      refine ⟨fun hf => hne (by rw [hf]; simp), ?_, ?_⟩
      · intro hf hev
        cases u with
        | false => exact hne rfl
        | true =>
          show termsVal pt h.terms = 1
          rw [← hB p h hh, ← hlog0 p hpl]
          apply a3 p ((mleq p).2 ⟨hpl, ?_⟩)
          have := prog_isLeq' h0 hc true p h hh
          rw [← hH, hf] at this
          rw [this]; simp [hev]
      · intro hf _
        cases u with
        | false => exact hne rfl
        | true => trivial
    · intro hall
      have hget := fun p (hpl : p < H.length) hp => hall p H[p] hp (List.getElem?_eq_getElem hpl)
      have hnon : ∀ p, p < H.length → 1 ≤ p → isEq (ks H) (genLoop H).meqAll u p = false → Real.log (B p) ≤ 0 := by
        intro p hpl hp hE
        rw [hlog p hpl, hB p _ (List.getElem?_eq_getElem hpl)]
        rw [prog_isEq' h0 hc u p _ (List.getElem?_eq_getElem hpl)] at hE
        obtain ⟨b1, b2, b3⟩ := hget p hpl hp
        cases hf : H[p].fromMeq with
        | false => exact b1 hf
        | true =>
          have hE : (u && H[p].fromMeq) = false := hE
          rw [hf, Bool.and_true] at hE
          subst hE
          rcases Nat.mod_two_eq_zero_or_one ((H.take p).countP (·.fromMeq)) with hm | hm
          · exact b2 hf hm
          · exact b3 hf hm
      refine ⟨?_, ?_, ?_⟩
      · intro p hp
        obtain ⟨q1, q2⟩ := (r2 p).1 hp
        obtain ⟨q3, q4⟩ := (mlse p).1 q2
        unfold isLse at q4
        rw [Bool.and_eq_true] at q4
        exact hnon p q3 q1 (by simpa using q4.1)
      · intro p hp
        obtain ⟨q3, q4⟩ := (mlin p).1 hp
        unfold isLin at q4
        simp only [Bool.and_eq_true, decide_eq_true_eq] at q4
        exact hnon p q3 (by omega) (by simpa using q4.1)
      · intro p hp
        obtain ⟨q3, q4⟩ := (mleq p).1 hp
        rw [prog_isLeq h0 hc u p q3] at q4
        simp only [Bool.and_eq_true, decide_eq_true_eq] at q4
        obtain ⟨⟨hu, hf⟩, hev⟩ := q4
        have hp1 : 1 ≤ p := by
          rcases Nat.eq_zero_or_pos p with rfl | h
          · simp [progMaps] at hf
          · exact h
        obtain ⟨_, b2, _⟩ := hget p q3 hp1
        have := b2 hf hev
        rw [if_pos hu] at this
        rw [hlog0 p q3, hB p _ (List.getElem?_eq_getElem q3), this]
  rw [hsplit]
  have hpos := positions cons [⟨cost, false⟩] (by simp) (fun h => termsVal pt h.terms ≤ 1)
    (fun h => if u then termsVal pt h.terms = 1 else termsVal pt h.terms ≤ 1)
    (fun h => if u then True else termsVal pt h.terms ≤ 1) (fun c => c.Sat pt)
    (fun ts _ => Iff.rfl) (by
      intro e e' c hm
      obtain ⟨c1, _, _, c2⟩ := hc _ hm
      have c2 := c2 pt hpt
      have m1 := monVal_pos hpt e.items
      have m2 := monVal_pos hpt e'.items
      have hinv : 1 / c * monVal pt e'.items * (c * monVal pt e.items) = 1 := by
        rw [show 1 / c * monVal pt e'.items * (c * monVal pt e.items)
          = (1 / c * c) * (monVal pt e'.items * monVal pt e.items) by ring, c2]
        field_simp
      simp only [termsVal, List.map_cons, List.map_nil, List.sum_cons, List.sum_nil, add_zero, Con.Sat]
      cases u with
      | true => simp
      | false =>
        simp only [Bool.false_eq_true, if_false]
        have p1 : 0 < c * monVal pt e.items := mul_pos c1 m1
        have p2 : 0 < 1 / c * monVal pt e'.items := mul_pos (by positivity) m2
        constructor
        · rintro ⟨a1, a2⟩
          nlinarith
        · intro h
          rw [h, mul_one] at hinv
          exact ⟨h.le, hinv.le⟩)
  exact hpos

/-- The sum of a list against a function of the position. -/
theorem wsum_eq_dotList (la : List ℝ) (L : Nat → ℝ) (f : List ℝ) (hl : la.length = f.length)
    (h : ∀ i x, f[i]? = some x → L i = x) : wsum la L = dotList la f := by
  have : ∀ (la f : List ℝ) (k : Nat), la.length = f.length → (∀ i x, f[i]? = some x → L (k + i) = x) →
      ((la.zipIdx k).map (fun xi => xi.1 * L xi.2)).sum = (List.zipWith (· * ·) la f).sum := by
    intro la
    induction la with
    | nil => intro f k _ _; simp
    | cons a la ih =>
      intro f k hl h
      cases f with
      | nil => simp at hl
      | cons b f =>
        have hb := h 0 b rfl
        rw [Nat.add_zero] at hb
        simp only [List.zipIdx_cons, List.map_cons, List.sum_cons, List.zipWith_cons_cons]
        rw [ih f (k + 1) (by simpa using hl) (by
          intro i x hx
          have := h (i + 1) x (by simpa using hx)
          rw [← this]; congr 1; omega), hb]
  exact this la f 0 hl (by intro i x hx; rw [Nat.zero_add]; exact h i x hx)

/-- **C38.** The multipliers handed back belong to the right constraints: at every point, the Lagrangian of the program with them is the
Lagrangian of the cvxopt problem with cvxopt's multipliers. That of the cost is one; none is negative if those of the inequalities
are not. -/
theorem C38_multipliers (cost : List (HV V ℝ × ℝ)) (cons : List (Con V)) (h0 : (Con.ineq cost).OK) (hc : ∀ c ∈ cons, c.OK)
    (u : Bool) (mc : Nat) (zl znl ye : List ℝ)
    (hzl : zl.length = (progArgs cost cons u mc).h.length) (hznl : znl.length + 1 = (progArgs cost cons u mc).K.length)
    (hye : ye.length = (progArgs cost cons u mc).b.length) :
    let P := progArgs cost cons u mc
    let la := multipliers (ks (progMaps cost cons)).length (progSplit cost cons u) zl znl ye
    la.length = (progMaps cost cons).length ∧ la[0]? = some 1 ∧
    ((∀ z ∈ zl, 0 ≤ z) → (∀ z ∈ znl, 0 ≤ z) → ∀ l ∈ la, 0 ≤ l) ∧
    ∀ (pt : V → ℝ), (∀ v, 0 < pt v) → ∀ (y : Nat → ℝ),
      (∀ j v, ((genLoop (progMaps cost cons)).varlocs.map (·.1))[j]? = some v → y j = Real.log (pt v)) →
      dotList la ((progMaps cost cons).map (fun h => Real.log (termsVal pt h.terms))) =
        dotList (1 :: znl) ((blockSums P.K (expRows P.F P.g y)).map Real.log)
          + dotList zl (residuals P.G P.h y) + dotList ye (residuals P.A P.b y) := by
  intro P la
  have ok := prog_ok h0 hc
  set H := progMaps cost cons with hH
  set s := progSplit cost cons u with hs
  have hsp : s = _ := split_eq (ks H) (genLoop H).meqAll (genLoop H).firstHalf u (ks H).length
  have hkl : (ks H).length = H.length := by simp [ks]
  have mlse : ∀ p, p ∈ s.lsePosys ↔ p < H.length ∧ isLse (ks H) (genLoop H).meqAll u p = true := by
    intro p; rw [hsp, hkl]; simp [List.mem_filter]
  have mlin : ∀ p, p ∈ s.linPosys ↔ p < H.length ∧ isLin (ks H) (genLoop H).meqAll u p = true := by
    intro p; rw [hsp, hkl]; simp [List.mem_filter]
  have mleq : ∀ p, p ∈ s.leqPosys ↔ p < H.length ∧
      isLeq (ks H) (genLoop H).meqAll (genLoop H).firstHalf u p = true := by
    intro p; rw [hsp, hkl]; simp [List.mem_filter]
  have nlse : s.lsePosys.Nodup := by rw [hsp]; exact List.Nodup.filter _ List.nodup_range
  have nlin : s.linPosys.Nodup := by rw [hsp]; exact List.Nodup.filter _ List.nodup_range
  have nleq : s.leqPosys.Nodup := by rw [hsp]; exact List.Nodup.filter _ List.nodup_range
  -- lengths
  have valsAt := fun (pt : V → ℝ) (hpt : ∀ v, 0 < pt v) (y : Nat → ℝ) hy =>
    prog_values h0 hc u mc pt hpt y hy (fun p => ((H[p]?).map (fun h => termsVal pt h.terms)).getD 0)
      (by intro p h hp; simp only [← hH] at hp ⊢; rw [hp]; rfl)
  have hlens : s.linPosys.length = zl.length ∧ s.lsePosys.length = (1 :: znl).length ∧ s.leqPosys.length = ye.length := by
    obtain ⟨v1, v2, v3⟩ := valsAt (fun _ => 1) (fun _ => one_pos) (fun _ => 0) (by intros; simp)
    have e2 := congrArg List.length v2
    have e3 := congrArg List.length v3
    simp only [residuals, List.length_map, List.length_zipIdx] at e2 e3
    refine ⟨by rw [hzl, e2], ?_, by rw [hye, e3]⟩
    have : (progArgs cost cons u mc).K.length = s.lsePosys.length := by
      unfold progArgs build; simp [hs]
    rw [List.length_cons, hznl, this]
  obtain ⟨l1, l2, l3⟩ := hlens
  -- second halves
  have hpair : ∀ p ∈ s.leqPosys, ∃ (e e' : HV V ℝ) (c : ℝ), Con.eq e e' c ∈ cons ∧ H[p]? = some ⟨[(e, c)], true⟩ ∧
      H[p + 1]? = some ⟨[(e', 1 / c)], true⟩ := by
    intro p hp
    obtain ⟨q3, q4⟩ := (mleq p).1 hp
    rw [prog_isLeq h0 hc u p q3] at q4
    simp only [Bool.and_eq_true, decide_eq_true_eq] at q4
    obtain ⟨⟨_, hf⟩, hev⟩ := q4
    have hp1 : 1 ≤ p := by
      rcases Nat.eq_zero_or_pos p with rfl | h
      · simp [progMaps] at hf
      · exact h
    have key : ∀ (cons' : List (Con V)) (pre : List (Hmap V ℝ)), pre.countP (·.fromMeq) % 2 = 0 → ∀ p h, pre.length ≤ p →
        (pre ++ cons'.flatMap hmaps)[p]? = some h → h.fromMeq = true →
        ((pre ++ cons'.flatMap hmaps).take p).countP (·.fromMeq) % 2 = 0 →
        ∃ (e e' : HV V ℝ) (c : ℝ), Con.eq e e' c ∈ cons' ∧ (pre ++ cons'.flatMap hmaps)[p]? = some ⟨[(e, c)], true⟩ ∧
          (pre ++ cons'.flatMap hmaps)[p + 1]? = some ⟨[(e', 1 / c)], true⟩ := by
      intro cons'
      induction cons' with
      | nil =>
        intro pre _ p h hp hh
        rw [List.flatMap_nil, List.append_nil, List.getElem?_eq_none hp] at hh; cases hh
      | cons c cons' ih =>
        intro pre hpre p h hp hh hfm hcount
        cases c with
        | ineq ts =>
          have hsh : pre ++ (Con.ineq ts :: cons').flatMap hmaps = (pre ++ [⟨ts, false⟩]) ++ cons'.flatMap hmaps := by
            simp [hmaps]
          rw [hsh] at hh hcount ⊢
          rcases Nat.eq_or_lt_of_le hp with rfl | hlt
          · have : h = ⟨ts, false⟩ := by simpa using hh.symm
            rw [this] at hfm; cases hfm
          · obtain ⟨e, e', c, m1, m2⟩ := ih (pre ++ [⟨ts, false⟩]) (by simpa using hpre) p h (by simp; omega) hh hfm hcount
            exact ⟨e, e', c, List.mem_cons_of_mem _ m1, m2⟩
        | eq e e' c =>
          have hsh : pre ++ (Con.eq e e' c :: cons').flatMap hmaps
              = (pre ++ [⟨[(e, c)], true⟩, ⟨[(e', 1 / c)], true⟩]) ++ cons'.flatMap hmaps := by simp [hmaps]
          rw [hsh] at hh hcount ⊢
          rcases Nat.eq_or_lt_of_le hp with rfl | hlt
          · exact ⟨e, e', c, by simp, by simp, by simp⟩
          · rcases Nat.eq_or_lt_of_le (Nat.succ_le_of_lt hlt) with hp2 | hlt2
            · exfalso
              have hp2 : p = pre.length + 1 := hp2.symm
              subst hp2
              rw [List.append_assoc, List.take_append] at hcount
              simp [List.countP_append] at hcount
              rw [List.take_of_length_le (by omega)] at hcount
              omega
            · obtain ⟨f, f', d, m1, m2⟩ := ih (pre ++ [⟨[(e, c)], true⟩, ⟨[(e', 1 / c)], true⟩])
                (by simp [List.countP_append]; omega) p h (by simp; omega) hh hfm hcount
              exact ⟨f, f', d, List.mem_cons_of_mem _ m1, m2⟩
    exact key cons [⟨cost, false⟩] (by simp) p H[p] hp1 (List.getElem?_eq_getElem q3) hf hev
  have hodd : ∀ p ∈ s.leqPosys, p + 1 < H.length ∧ isEq (ks H) (genLoop H).meqAll u p = true ∧
      isEq (ks H) (genLoop H).meqAll u (p + 1) = true ∧ p + 1 ∉ s.leqPosys := by
    intro p hp
    obtain ⟨e, e', c, _, g1, g2⟩ := hpair p hp
    obtain ⟨q3, q4⟩ := (mleq p).1 hp
    have hp1 : p + 1 < H.length := by
      by_contra hh; rw [List.getElem?_eq_none (by omega)] at g2; cases g2
    have hE : isEq (ks H) (genLoop H).meqAll u p = true := by
      unfold isLeq at q4; rw [Bool.and_eq_true] at q4; exact q4.1
    have hu : u = true := by unfold isEq at hE; rw [Bool.and_eq_true] at hE; exact hE.1
    refine ⟨hp1, hE, ?_, ?_⟩
    · have := prog_isEq' h0 hc u (p + 1) _ g2
      rw [this, hu]; rfl
    · intro hmem
      have q5 := ((mleq (p + 1)).1 hmem).2
      rw [prog_isLeq' h0 hc u _ _ g2] at q5
      rw [prog_isLeq' h0 hc u _ _ g1] at q4
      simp only [Bool.and_eq_true, decide_eq_true_eq, ← hH] at q4 q5
      rw [List.take_add_one, List.countP_append, g1] at q5
      have h1 := q4.2
      have h2 := q5.2
      simp at h2
      omega
  -- the three assignments
  set la0 : List ℝ := List.replicate (ks H).length 0 with hla0
  have get0 : ∀ p, p < H.length → la0[p]? = some 0 := by
    intro p hp; rw [hla0, List.getElem?_replicate, hkl, if_pos hp]
  have dis1 : ∀ p ∈ s.lsePosys, p ∉ s.linPosys := by
    intro p hp hp'
    have a := ((mlse p).1 hp).2
    have b := ((mlin p).1 hp').2
    unfold isLse at a; unfold isLin at b
    rw [Bool.and_eq_true] at a b
    rw [b.2] at a
    simp at a
  have notEq : ∀ p, p ∈ s.lsePosys ∨ p ∈ s.linPosys → isEq (ks H) (genLoop H).meqAll u p = false := by
    intro p hp
    rcases hp with hp | hp
    · have a := ((mlse p).1 hp).2
      unfold isLse at a; rw [Bool.and_eq_true] at a; simpa using a.1
    · have a := ((mlin p).1 hp).2
      unfold isLin at a; rw [Bool.and_eq_true] at a; simpa using a.1
  have dis2 : ∀ p, isEq (ks H) (genLoop H).meqAll u p = true → p ∉ s.lsePosys ∧ p ∉ s.linPosys := by
    intro p hE
    constructor <;> intro hh
    · rw [notEq p (Or.inl hh)] at hE; cases hE
    · rw [notEq p (Or.inr hh)] at hE; cases hE
  have A1 := fun L => assign_spec s.linPosys zl la0 L l1 nlin (fun p hp => get0 p ((mlin p).1 hp).1)
  set la1 := assign la0 s.linPosys zl with hla1
  have A2 := fun L => assign_spec s.lsePosys (1 :: znl) la1 L l2 nlse (fun p hp => by
    rw [(A1 (fun _ => 0)).2.2.1 p (dis1 p hp)]; exact get0 p ((mlse p).1 hp).1)
  set la2 := assign la1 s.lsePosys (1 :: znl) with hla2
  have hflat : (s.leqPosys.flatMap (fun i => [i, i + 1])).Nodup := by
    rw [List.nodup_flatMap]
    refine ⟨by intro x _; simp, ?_⟩
    refine nleq.imp_of_mem ?_
    intro a b ha hb hab x hx hx'
    simp only [List.mem_cons, List.not_mem_nil, or_false] at hx hx'
    rcases hx with rfl | rfl <;> rcases hx' with h | h
    · exact hab h
    · subst h; exact (hodd b hb).2.2.2 ha
    · subst h; exact (hodd a ha).2.2.2 hb
    · exact hab (by omega)
  have zero2 : ∀ p, p < H.length → isEq (ks H) (genLoop H).meqAll u p = true → la2[p]? = some 0 := by
    intro p hp hE
    obtain ⟨d1, d2⟩ := dis2 p hE
    rw [(A2 (fun _ => 0)).2.2.1 p d1, (A1 (fun _ => 0)).2.2.1 p d2]
    exact get0 p hp
  have A3 := fun L hL => assignEq_spec s.leqPosys ye la2 L l3 hflat (fun p hp => by
    obtain ⟨o1, o2, o3, _⟩ := hodd p hp
    exact ⟨zero2 p (by omega) o2, zero2 (p + 1) o1 o3⟩) hL
  have hla : la = (s.leqPosys.zip ye).foldl assignEq la2 := rfl
  have hlen : la.length = H.length := by
    rw [hla, (A3 (fun _ => 0) (by simp)).2.1, (A2 (fun _ => 0)).2.1, (A1 (fun _ => 0)).2.1, hla0, List.length_replicate, hkl]
  obtain ⟨rest, r1, r2⟩ := prog_lsePosys h0 hc u
  refine ⟨hlen, ?_, ?_, ?_⟩
  · rw [hla, (A3 (fun _ => 0) (by simp)).2.2.1 0, (A2 (fun _ => 0)).2.2.2 0 0 (by rw [hs, r1]; rfl)]
    · rfl
    · intro hh
      obtain ⟨p, hp, hp'⟩ := List.mem_flatMap.1 hh
      simp only [List.mem_cons, List.not_mem_nil, or_false] at hp'
      rcases hp' with rfl | h
      · obtain ⟨d1, _⟩ := dis2 0 (hodd 0 hp).2.1
        exact d1 (by rw [hs, r1]; simp)
      · omega
  · intro hz1 hz2
    rw [hla]
    apply (A3 (fun _ => 0) (by simp)).2.2.2
    intro x hx
    obtain ⟨p, hp⟩ := List.mem_iff_getElem?.1 hx
    by_cases hpl : p ∈ s.lsePosys
    · obtain ⟨q, hq⟩ := List.mem_iff_getElem?.1 hpl
      rw [(A2 (fun _ => 0)).2.2.2 q p hq] at hp
      rcases List.mem_cons.1 (List.mem_of_getElem? hp) with rfl | h
      · exact zero_le_one
      · exact hz2 x h
    · rw [(A2 (fun _ => 0)).2.2.1 p hpl] at hp
      by_cases hpl' : p ∈ s.linPosys
      · obtain ⟨q, hq⟩ := List.mem_iff_getElem?.1 hpl'
        rw [(A1 (fun _ => 0)).2.2.2 q p hq] at hp
        exact hz1 x (List.mem_of_getElem? hp)
      · rw [(A1 (fun _ => 0)).2.2.1 p hpl', hla0] at hp
        have := (List.mem_replicate.1 (List.mem_of_getElem? hp)).2
        rw [this]
  · intro pt hpt y hy
    obtain ⟨v1, v2, v3⟩ := valsAt pt hpt y hy
    set B : Nat → ℝ := fun p => ((H[p]?).map (fun h => termsVal pt h.terms)).getD 0 with hBdef
    have hL : ∀ p ∈ s.leqPosys, Real.log (B (p + 1)) = -Real.log (B p) := by
      intro p hp
      obtain ⟨e, e', c, hm, g1, g2⟩ := hpair p hp
      obtain ⟨c1, _, _, c2⟩ := hc _ hm
      have c2 := c2 pt hpt
      rw [hBdef]
      simp only [g1, g2, Option.map_some, Option.getD_some, termsVal, List.map_cons, List.map_nil, List.sum_cons, List.sum_nil,
        add_zero]
      rw [← Real.log_inv]
      congr 1
      have m1 := monVal_pos hpt e.items
      have : monVal pt e'.items = (monVal pt e.items)⁻¹ := eq_inv_of_mul_eq_one_left c2
      rw [this, mul_inv, one_div]
    rw [← wsum_eq_dotList la (fun p => Real.log (B p)) _ (by rw [hlen, List.length_map]) (by
      intro i x hx
      rw [List.getElem?_map] at hx
      cases hi : H[i]? with
      | none => rw [hi] at hx; cases hx
      | some h =>
        rw [hi, Option.map_some, Option.some.injEq] at hx
        rw [hBdef]; simp only [hi, Option.map_some, Option.getD_some]; exact hx)]
    rw [hla, (A3 _ hL).1, (A2 _).1, (A1 _).1, hla0, wsum_replicate]
    show _ = dotList (1 :: znl) ((blockSums P.K (expRows P.F P.g y)).map Real.log)
          + dotList zl (residuals P.G P.h y) + dotList ye (residuals P.A P.b y)
    rw [v1, v2, v3, List.map_map]
    show 0 + dotList zl _ + dotList (1 :: znl) _ + dotList ye _ = dotList (1 :: znl) _ + _ + _
    rw [zero_add, add_comm (dotList zl _)]
    rfl

/-- A program with all three kinds of rows meets the hypotheses: minimise `x + y` subject to `1/x + 1/y <= 1`, `2/y <= 1` and
`x = y`. -/
example :
    let X : HV String ℝ := ⟨[("x", 1)]⟩
    let Y : HV String ℝ := ⟨[("y", 1)]⟩
    let cost := [(X, (1 : ℝ)), (Y, 1)]
    let cons : List (Con String) := [.ineq [(⟨[("x", -1)]⟩, 1), (⟨[("y", -1)]⟩, 1)], .ineq [(⟨[("y", -1)]⟩, 2)],
      .eq ⟨[("x", 1), ("y", -1)]⟩ ⟨[("x", -1), ("y", 1)]⟩ 1]
    (Con.ineq cost).OK ∧ (∀ c ∈ cons, c.OK) ∧ (progArgs cost cons true 1).K.length = 2 ∧
      (progArgs cost cons true 1).h.length = 1 ∧ (progArgs cost cons true 1).b.length = 1 := by
  refine ⟨?_, ?_, ?_⟩
  · simp [Con.OK]
  · intro c hc
    simp only [List.mem_cons, List.not_mem_nil, or_false] at hc
    rcases hc with rfl | rfl | rfl
    · simp [Con.OK]
    · simp [Con.OK]
    · refine ⟨one_pos, by simp, by simp, ?_⟩
      intro pt hpt
      have h1 := hpt "x"
      have h2 := hpt "y"
      simp [monVal, Real.rpow_neg h1.le, Real.rpow_neg h2.le]
      field_simp
  · simp [progArgs, progSplit, build, split, splitStep, progMaps, hmaps, genLoop, genStep, noteMeq, ks, List.range_succ,
      List.range'_succ]

end Verif
