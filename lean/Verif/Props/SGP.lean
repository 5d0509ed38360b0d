import Verif.Lemmas.SGP
import Verif.Props.Inequality

/-! Properties of sequential geometric programs: C19 and C18. -/

set_option linter.unusedSectionVars false

namespace Verif
open PyDict GP
namespace SGP
variable {V K : Type} [DecidableEq V] [Field K] [LinearOrder K]

/-- What `gen`'s bookkeeping depends on. -/
def skel (h : Hmap V K) : Nat × Bool := (h.terms.length, h.fromMeq)

theorem genLoop_skel (hs : List (Hmap V K)) : ∀ hs' : List (Hmap V K), hs.map skel = hs'.map skel →
    (genLoop hs).mIdxs = (genLoop hs').mIdxs ∧ (genLoop hs).pIdxs = (genLoop hs').pIdxs ∧
    (genLoop hs).meqAll = (genLoop hs').meqAll ∧ (genLoop hs).firstHalf = (genLoop hs').firstHalf ∧
    (genLoop hs).exps.length = (genLoop hs').exps.length := by
  induction hs using List.reverseRecOn with
  | nil =>
    intro hs' h
    have : hs' = [] := by simpa using h.symm
    subst this
    exact ⟨rfl, rfl, rfl, rfl, rfl⟩
  | append_singleton hs a ih =>
    intro hs' h
    cases hs' using List.reverseRecOn with
    | nil => simp at h
    | append_singleton hs' b =>
      rw [List.map_append, List.map_append, List.map_singleton, List.map_singleton] at h
      obtain ⟨h1, h2⟩ := List.append_inj' h (by simp)
      obtain ⟨i1, i2, i3, i4, i5⟩ := ih hs' h1
      have hab : skel a = skel b := by simpa using h2
      have hl : a.terms.length = b.terms.length := congrArg Prod.fst hab
      have hm : a.fromMeq = b.fromMeq := congrArg Prod.snd hab
      rw [genLoop_append, genLoop_append]
      refine ⟨?_, ?_, ?_, ?_, ?_⟩
      · simp only [genStep, i1, i5, hl]
      · simp only [genStep, i1, i2, hl]
      · simp only [genStep, i3, i4, i5, hm]
      · simp only [genStep, i3, i4, i5, hm]
      · simp only [genStep, List.length_append, List.length_map, i5, hl]

theorem start_skel {hs hs' : List (Hmap V K)} (h : hs.map skel = hs'.map skel) (p : Nat) : start hs p = start hs' p := by
  have : ∀ l : List (Hmap V K), start l p = (((l.map skel).take p).map (·.1)).sum := by
    intro l
    unfold start
    rw [List.map_take, List.map_take, List.map_map]
    rfl
  rw [this, this, h]

/-- Writing a block into a list. -/
theorem setFold {α β : Type} (f : α → β) (m : Nat) (S : List β) : ∀ (T' : List α) (T P : List β) (k : Nat), T.length = T'.length →
    P.length = m + k → (T'.zipIdx k).foldl (fun l tn => l.set (m + tn.2) (f tn.1)) (P ++ T ++ S) = P ++ T'.map f ++ S
  | [], T, P, k, h, _ => by
    have : T = [] := by simpa using h
    subst this
    rfl
  | t' :: T', T, P, k, h, hP => by
    cases T with
    | nil => simp at h
    | cons t T =>
      rw [List.zipIdx_cons, List.foldl_cons]
      have hset : (P ++ t :: T ++ S).set (m + k) (f t') = (P ++ [f t']) ++ T ++ S := by
        rw [← hP]; simp
      rw [hset, setFold f m S T' T (P ++ [f t']) (k + 1) (by simpa using h) (by simp [hP]; omega)]
      simp

theorem rowDot_block (cv : V → Nat) (m : Nat) (y : Nat → K) (i : Nat) : ∀ (ts : List (HV V K × K)) (k : Nat),
    rowDot (blockEntries cv m (ts.zipIdx k)) y i =
      if m + k ≤ i then ((ts[i - (m + k)]?).map (fun t => expDot (fun v => y (cv v)) t.1.items)).getD 0 else 0
  | [], k => by simp [blockEntries, rowDot]
  | t :: ts, k => by
    have hb : blockEntries cv m ((t :: ts).zipIdx k) = t.1.items.map (fun vx => (m + k, cv vx.1, vx.2)) ++
        blockEntries cv m (ts.zipIdx (k + 1)) := by
      rw [List.zipIdx_cons]; rfl
    rw [hb, rowDot_append, rowDot_block cv m y i ts (k + 1)]
    have hone : ∀ l : List (V × K), rowDot (l.map (fun vx => (m + k, cv vx.1, vx.2))) y i =
        if m + k = i then expDot (fun v => y (cv v)) l else 0 := by
      intro l
      induction l with
      | nil => simp [rowDot, expDot]
      | cons p l ih =>
        rw [List.map_cons, rowDot_cons, ih]
        by_cases h : m + k = i <;> simp [h, expDot]
    rw [hone]
    by_cases h1 : m + k = i
    · subst h1
      simp
    · rw [if_neg h1, zero_add]
      by_cases h2 : m + k ≤ i
      · have h3 : m + (k + 1) ≤ i := by omega
        rw [if_pos h2, if_pos h3]
        have : i - (m + k) = (i - (m + (k + 1))) + 1 := by omega
        rw [this, List.getElem?_cons_succ]
      · have h3 : ¬ m + (k + 1) ≤ i := by omega
        rw [if_neg h2, if_neg h3]

theorem allTerms_split {hs : List (Hmap V K)} {p : Nat} {h0 : Hmap V K} (hp : hs[p]? = some h0) :
    allTerms hs = allTerms (hs.take p) ++ h0.terms ++ allTerms (hs.drop (p + 1)) ∧ (allTerms (hs.take p)).length = start hs p := by
  obtain ⟨hlt, hp⟩ := List.getElem?_eq_some_iff.1 hp
  constructor
  · have hs' : hs = hs.take p ++ hs[p] :: hs.drop (p + 1) := by
      conv_lhs => rw [← List.take_append_drop p hs, List.drop_eq_getElem_cons hlt]
    conv_lhs => rw [hs']
    simp [allTerms, hp]
  · simp [allTerms, start, List.length_flatMap]

theorem allTerms_set {hs : List (Hmap V K)} {p : Nat} (hp : p < hs.length) (h : Hmap V K) :
    allTerms (hs.set p h) = allTerms (hs.take p) ++ h.terms ++ allTerms (hs.drop (p + 1)) := by
  rw [List.set_eq_take_append_cons_drop, if_pos hp]
  simp [allTerms]

/-- What holds before and after every update. -/
structure Inv (hs0 : List (Hmap V K)) (nsp : Nat) (s : Prog V K) : Prop where
  gen : s.gen = genLoop hs0
  skel : s.hmaps.map skel = hs0.map skel
  exps : s.exps = (allTerms s.hmaps).map (·.1)
  cs : s.cs = (allTerms s.hmaps).map (·.2)
  known : ∀ t ∈ allTerms s.hmaps, ∀ vx ∈ t.1.items, vx.1 ∈ (genLoop hs0).varlocs.map (·.1)
  nod : ∀ t ∈ allTerms s.hmaps, WF t.1.items
  row : ∀ y i e, s.exps[i]? = some e → rowDot s.A y i = expDot (fun v => y ((genLoop hs0).varidx v)) e.items
  nd : ∀ p, 1 ≤ p → p ≤ nsp → (s.aIdxs p).Nodup
  rng : ∀ p, 1 ≤ p → p ≤ nsp → ∀ r ∈ s.aIdxs p, r < s.A.length
  own : ∀ p, 1 ≤ p → p ≤ nsp → ∀ y i, ((s.aIdxs p).map (gIdx y i s.A)).sum =
    if start hs0 p ≤ i ∧ i < start hs0 (p + 1) then rowDot s.A y i else 0
  disj : ∀ p q, 1 ≤ p → p ≤ nsp → 1 ≤ q → q ≤ nsp → p ≠ q → ∀ r ∈ s.aIdxs p, r ∉ s.aIdxs q

theorem start_succ {hs : List (Hmap V K)} {p : Nat} {h : Hmap V K} (hp : hs[p]? = some h) :
    start hs (p + 1) = start hs p + h.terms.length := by
  unfold start
  rw [List.take_add_one, hp]
  simp

theorem start_mono (hs : List (Hmap V K)) {p q : Nat} (h : p ≤ q) : start hs p ≤ start hs q := by
  unfold start
  rw [List.map_take, List.map_take]
  exact (List.take_sublist_take_left h).sum_le_sum (by simp)

theorem replace_inv {hs0 : List (Hmap V K)} {nsp : Nat} (hnsp : nsp < hs0.length) {s : Prog V K} (hi : Inv hs0 nsp s) (p : Nat) (h : Hmap V K)
    (h1 : 1 ≤ p) (h2 : p ≤ nsp) (hsk : (hs0[p]?).map SGP.skel = some (SGP.skel h))
    (hk : ∀ t ∈ h.terms, ∀ vx ∈ t.1.items, vx.1 ∈ (genLoop hs0).varlocs.map (·.1)) (hw : ∀ t ∈ h.terms, WF t.1.items) :
    ∃ s', replace p h s = .ok s' ∧ Inv hs0 nsp s' ∧ s'.hmaps = s.hmaps.set p h := by
  have hlen : s.hmaps.length = hs0.length := by simpa using congrArg List.length hi.skel
  have hp : p < s.hmaps.length := by omega
  obtain ⟨h0, hh0⟩ : ∃ h0, s.hmaps[p]? = some h0 := ⟨_, List.getElem?_eq_getElem hp⟩
  have hsk0 : skel h0 = skel h := by
    have := congrArg (fun l => l[p]?) hi.skel
    simp only [List.getElem?_map, hh0, hsk, Option.map_some] at this
    exact Option.some.inj this
  have hl0 : h0.terms.length = h.terms.length := congrArg Prod.fst hsk0
  obtain ⟨hall, hP⟩ := allTerms_split hh0
  have hst : ∀ q, start s.hmaps q = start hs0 q := start_skel hi.skel
  have hset := allTerms_set hp h
  have hskel' : (s.hmaps.set p h).map SGP.skel = hs0.map SGP.skel := by
    rw [← hi.skel, List.map_set, ← hsk0]
    apply List.ext_getElem?
    intro q
    by_cases hq : p = q
    · subst hq; rw [List.getElem?_set_self (by simpa using hp), List.getElem?_map, hh0]; rfl
    · rw [List.getElem?_set_ne hq]
  have hm : s.gen.mIdxs[p]? = some (start hs0 p, start hs0 p + h0.terms.length) := by
    rw [hi.gen, ← (genLoop_skel _ _ hi.skel).1, gen_mIdxs, hh0, hst]
    rfl
  have hN : s.exps.length = (allTerms s.hmaps).length := by rw [hi.exps, List.length_map]
  have hN' : s.cs.length = (allTerms s.hmaps).length := by rw [hi.cs, List.length_map]
  have hcol : ∀ tn ∈ h.terms.zipIdx, ∀ vx ∈ tn.1.1.items, colOf s.gen vx.1 = some ((genLoop hs0).varidx vx.1) := by
    intro tn htn vx hvx
    have ht : tn.1 ∈ h.terms := by
      obtain ⟨t, n⟩ := tn
      exact List.fst_mem_of_mem_zipIdx htn
    unfold colOf
    rw [hi.gen, if_pos (hk _ ht vx hvx)]
  have hlast : start hs0 p + h.terms.length ≤ (allTerms s.hmaps).length := by
    rw [hall, ← hst p, ← hP, ← hl0]
    simp only [List.length_append]
    omega
  have hpos : ∀ tn ∈ h.terms.zipIdx, start hs0 p + tn.2 < (allTerms s.hmaps).length := by
    rintro ⟨t, n⟩ htn
    have : n < h.terms.length := by
      have := List.snd_lt_of_mem_zipIdx htn
      simpa using this
    show start hs0 p + n < _
    omega
  obtain ⟨r, hr1, hr2, hr3, hr4⟩ := termFold_ok (hi.nd p h1 h2) (hi.rng p h1 h2) (colOf s.gen) (genLoop hs0).varidx (start hs0 p)
    h.terms.zipIdx hcol _ hpos (acc := []) (s := ⟨s.exps, s.cs, s.A, s.aIdxs p, []⟩) (fillOK_init _ _) hN hN'
  rw [List.nil_append] at hr2
  obtain ⟨d1, d2, d3, d4, d5, d6⟩ := fill_done (hi.nd p h1 h2) (hi.rng p h1 h2) hr2
  refine ⟨_, by unfold replace; rw [if_pos hp, hm]; dsimp only; rw [hr1]; rfl, ?_, rfl⟩
  have hexps : r.exps = (allTerms (s.hmaps.set p h)).map (·.1) := by
    rw [hr3, hset]
    show h.terms.zipIdx.foldl _ s.exps = _
    rw [hi.exps, hall, List.map_append, List.map_append, List.map_append, List.map_append]
    exact setFold (fun t : HV V K × K => t.1) _ _ h.terms _ _ 0 (by simpa using hl0) (by rw [List.length_map, hP, hst]; rfl)
  have hcs : r.cs = (allTerms (s.hmaps.set p h)).map (·.2) := by
    rw [hr4, hset]
    show h.terms.zipIdx.foldl _ s.cs = _
    rw [hi.cs, hall, List.map_append, List.map_append, List.map_append, List.map_append]
    exact setFold (fun t : HV V K × K => t.2) _ _ h.terms _ _ 0 (by simpa using hl0) (by rw [List.length_map, hP, hst]; rfl)
  have hstart1 : start hs0 (p + 1) = start hs0 p + h.terms.length := by
    rw [← hst, start_succ hh0, hst, hl0]
  -- the matrix, row by row
  have hrow : ∀ y i, rowDot (zeroOut r.fill.A r.fill.free) y i =
      if start hs0 p ≤ i ∧ i < start hs0 (p + 1) then rowDot (blockEntries (genLoop hs0).varidx (start hs0 p) h.terms.zipIdx) y i
      else rowDot s.A y i := by
    intro y i
    rw [(d6 y i).2, hi.own p h1 h2 y i]
    by_cases hb : start hs0 p ≤ i ∧ i < start hs0 (p + 1)
    · rw [if_pos hb, if_pos hb, sub_self, add_zero]
    · rw [if_neg hb, if_neg hb, sub_zero, rowDot_block]
      have : (if start hs0 p + 0 ≤ i then ((h.terms[i - (start hs0 p + 0)]?).map
          (fun t => expDot (fun v => y ((genLoop hs0).varidx v)) t.1.items)).getD 0 else 0) = 0 := by
        by_cases hle : start hs0 p ≤ i
        · rw [if_pos (by simpa using hle), List.getElem?_eq_none (by
            rw [hstart1] at hb
            have : ¬ i < start hs0 p + h.terms.length := fun hh => hb ⟨hle, hh⟩
            omega)]
          rfl
        · rw [if_neg (by simpa using hle)]
      rw [this, zero_add]
  have hmem : ∀ t, t ∈ allTerms (s.hmaps.set p h) → t ∈ allTerms s.hmaps ∨ t ∈ h.terms := by
    intro t ht
    rw [hset] at ht
    rw [hall]
    simp only [List.mem_append] at ht ⊢
    tauto
  refine ⟨hi.gen, hskel', hexps, hcs, ?_, ?_, ?_, ?_, ?_, ?_, ?_⟩
  · intro t ht
    rcases hmem t ht with ht | ht
    · exact hi.known t ht
    · exact hk t ht
  · intro t ht
    rcases hmem t ht with ht | ht
    · exact hi.nod t ht
    · exact hw t ht
  · intro y i e he
    show rowDot (zeroOut r.fill.A r.fill.free) y i = _
    rw [hrow]
    have he : r.exps[i]? = some e := he
    rw [hexps, hset, List.map_append, List.map_append] at he
    by_cases hb : start hs0 p ≤ i ∧ i < start hs0 (p + 1)
    · rw [if_pos hb, rowDot_block, if_pos (by simpa using hb.1)]
      rw [hstart1] at hb
      rw [List.getElem?_append_left (by simp [hP, hst]; omega), List.getElem?_append_right (by simp [hP, hst]; omega),
        List.getElem?_map, List.length_map, hP, hst] at he
      cases ht : h.terms[i - start hs0 p]? with
      | none => rw [ht] at he; cases he
      | some t =>
        rw [ht] at he
        cases he
        rfl
    · rw [if_neg hb]
      apply hi.row
      rw [hi.exps, hall, List.map_append, List.map_append]
      rw [hstart1] at hb
      by_cases hlt : i < start hs0 p
      · rw [List.append_assoc, List.getElem?_append_left (by simp [hP, hst]; omega)] at he ⊢
        exact he
      · have hge : start hs0 p + h.terms.length ≤ i := by
          by_contra hh
          exact hb ⟨by omega, by omega⟩
        rw [List.getElem?_append_right (by simp [hP, hst]; omega)] at he
        rw [List.getElem?_append_right (by simp [hP, hst, hl0]; omega)]
        rw [← he]
        simp [hl0]
  · intro q hq1 hq2
    show (if q = p then _ else _ : List Nat).Nodup
    by_cases hq : q = p
    · rw [if_pos hq]; exact d1
    · rw [if_neg hq]; exact hi.nd q hq1 hq2
  · intro q hq1 hq2 x hx
    have hx : x ∈ (if q = p then s.aIdxs p ++ r.fill.added else s.aIdxs q) := hx
    show x < (zeroOut r.fill.A r.fill.free).length
    by_cases hq : q = p
    · rw [if_pos hq] at hx; exact d2 x hx
    · rw [if_neg hq] at hx
      exact lt_of_lt_of_le (hi.rng q hq1 hq2 x hx) d3
  · intro q hq1 hq2 y i
    show ((if q = p then s.aIdxs p ++ r.fill.added else s.aIdxs q).map (gIdx y i (zeroOut r.fill.A r.fill.free))).sum =
      if _ then rowDot (zeroOut r.fill.A r.fill.free) y i else 0
    by_cases hq : q = p
    · rw [if_pos hq, (d6 y i).1, hrow]
      subst hq
      by_cases hb : start hs0 q ≤ i ∧ i < start hs0 (q + 1)
      · rw [if_pos hb, if_pos hb]
      · rw [if_neg hb, rowDot_block]
        by_cases hle : start hs0 q ≤ i
        · rw [if_pos (by simpa using hle), List.getElem?_eq_none (by
            rw [hstart1] at hb
            have : ¬ i < start hs0 q + h.terms.length := fun hh => hb ⟨hle, hh⟩
            omega)]
          rfl
        · rw [if_neg (by simpa using hle)]
    · rw [if_neg hq]
      have hsame : (s.aIdxs q).map (gIdx y i (zeroOut r.fill.A r.fill.free)) = (s.aIdxs q).map (gIdx y i s.A) := by
        apply List.map_congr_left
        intro x hx
        unfold gIdx
        rw [d5 x (hi.rng q hq1 hq2 x hx) (fun hh => hi.disj q p hq1 hq2 h1 h2 hq x hx hh)]
      rw [hsame, hi.own q hq1 hq2 y i, hrow]
      by_cases hb : start hs0 q ≤ i ∧ i < start hs0 (q + 1)
      · rw [if_pos hb, if_pos hb, if_neg]
        rintro ⟨hb1, hb2⟩
        rcases Nat.lt_or_gt_of_ne hq with hlt | hlt
        · have := start_mono hs0 (show q + 1 ≤ p by omega); omega
        · have := start_mono hs0 (show p + 1 ≤ q by omega); omega
      · rw [if_neg hb, if_neg hb]
  · intro q q' hq1 hq2 hq1' hq2' hne x hx hx'
    have hx : x ∈ (if q = p then s.aIdxs p ++ r.fill.added else s.aIdxs q) := hx
    have hx' : x ∈ (if q' = p then s.aIdxs p ++ r.fill.added else s.aIdxs q') := hx'
    by_cases hq : q = p
    · have hq' : q' ≠ p := fun hh => hne (by rw [hq, hh])
      rw [if_pos hq] at hx
      rw [if_neg hq'] at hx'
      rcases List.mem_append.1 hx with hx | hx
      · exact hi.disj p q' h1 h2 hq1' hq2' hq'.symm x hx hx'
      · have := d4 x hx
        have := hi.rng q' hq1' hq2' x hx'
        omega
    · rw [if_neg hq] at hx
      by_cases hq' : q' = p
      · rw [if_pos hq'] at hx'
        rcases List.mem_append.1 hx' with hx' | hx'
        · exact hi.disj q p hq1 hq2 h1 h2 hq x hx hx'
        · have := d4 x hx'
          have := hi.rng q hq1 hq2 x hx
          omega
      · rw [if_neg hq'] at hx'
        exact hi.disj q q' hq1 hq2 hq1' hq2' hne x hx hx'


theorem zipIdx_get {α : Type} {l : List α} {t : α} {r : Nat} (h : (t, r) ∈ l.zipIdx) : l[r]? = some t := by
  have := List.mem_zipIdx_iff_getElem?.1 h
  simpa using this

/-- The entries noted at the start are those of the rows of the posynomial. -/
theorem init_own (hs : List (Hmap V K)) (nsp : Nat) (hnsp : nsp < hs.length) (p : Nat) (h1 : 1 ≤ p) (h2 : p ≤ nsp) :
    (initProg nsp hs).aIdxs p =
      ((genLoop hs).A.zipIdx.filter (fun tr => decide (start hs p ≤ tr.1.1 ∧ tr.1.1 < start hs (p + 1)))).map (·.2) := by
  unfold initProg
  dsimp only
  congr 1
  apply List.filter_congr
  intro tr _
  rw [decide_eq_decide]
  have hp : p < hs.length := by omega
  have hget := List.getElem?_eq_getElem hp
  rw [gen_pIdxs]
  have hc0 : (ks hs).headD 0 = start hs 1 := by
    cases hs with
    | nil => rfl
    | cons a l => simp [ks, start]
  have hc1 : ((ks hs).take (1 + nsp)).sum = start hs (1 + nsp) := by
    unfold ks start
    rw [List.map_take]
  rw [hc0, hc1, start_succ hget]
  constructor
  · rintro ⟨_, _, h, hh, h3, h4⟩
    rw [hget] at hh
    cases hh
    exact ⟨h3, h4⟩
  · rintro ⟨h3, h4⟩
    refine ⟨le_trans (start_mono hs h1) h3, ?_, _, hget, h3, h4⟩
    have := start_mono hs (show p + 1 ≤ 1 + nsp by omega)
    rw [start_succ hget] at this
    omega

theorem init_inv (hs : List (Hmap V K)) (nsp : Nat) (hnsp : nsp < hs.length) (hw : ∀ t ∈ allTerms hs, WF t.1.items) :
    Inv hs nsp (initProg nsp hs) := by
  have hmem : ∀ p, 1 ≤ p → p ≤ nsp → ∀ r, r ∈ (initProg nsp hs).aIdxs p →
      ∃ t, (genLoop hs).A[r]? = some t ∧ start hs p ≤ t.1 ∧ t.1 < start hs (p + 1) := by
    intro p h1 h2 r hr
    rw [init_own hs nsp hnsp p h1 h2] at hr
    obtain ⟨⟨t, r'⟩, htr, rfl⟩ := List.mem_map.1 hr
    obtain ⟨htr, hc⟩ := List.mem_filter.1 htr
    have hc : start hs p ≤ t.1 ∧ t.1 < start hs (p + 1) := by simpa using hc
    exact ⟨t, zipIdx_get htr, hc⟩
  refine ⟨rfl, rfl, gen_exps hs, gen_cs hs, ?_, hw, ?_, ?_, ?_, ?_, ?_⟩
  · intro t ht vx hvx
    have hloc := (gen_expOK hs hw).loc
    have he : t.1 ∈ (allTerms hs).map (·.1) := List.mem_map.2 ⟨t, ht, rfl⟩
    obtain ⟨i, hi⟩ := List.mem_iff_getElem?.1 he
    exact (locOK_mem hloc vx.1).2 ⟨i, t.1, hi, contains_iff_mem.2 (List.mem_map.2 ⟨vx, hvx, rfl⟩)⟩
  · intro y i e he
    exact gen_rowDot hs hw y i e he
  · intro p h1 h2
    rw [init_own hs nsp hnsp p h1 h2]
    have : ((genLoop hs).A.zipIdx.map (·.2)).Nodup := by
      rw [List.zipIdx_map_snd]
      exact List.nodup_range'
    exact this.sublist (List.filter_sublist.map _)
  · intro p h1 h2 r hr
    obtain ⟨t, ht, _⟩ := hmem p h1 h2 r hr
    exact (List.getElem?_eq_some_iff.1 ht).1
  · intro p h1 h2 y i
    rw [init_own hs nsp hnsp p h1 h2, List.map_map]
    have hA : (initProg nsp hs).A = (genLoop hs).A := rfl
    rw [hA]
    have hone : ((genLoop hs).A.zipIdx.filter (fun tr => decide (start hs p ≤ tr.1.1 ∧ tr.1.1 < start hs (p + 1)))).map
        (gIdx y i (genLoop hs).A ∘ (·.2)) =
        ((genLoop hs).A.filter (fun t => decide (start hs p ≤ t.1 ∧ t.1 < start hs (p + 1)))).map (gAt y i) := by
      have e1 : (genLoop hs).A.filter (fun t => decide (start hs p ≤ t.1 ∧ t.1 < start hs (p + 1))) =
          ((genLoop hs).A.zipIdx.filter (fun tr => decide (start hs p ≤ tr.1.1 ∧ tr.1.1 < start hs (p + 1)))).map (·.1) := by
        conv_lhs => rw [← List.zipIdx_map_fst 0 (genLoop hs).A]
        rw [List.filter_map]
        rfl
      rw [e1, List.map_map]
      apply List.map_congr_left
      intro tr htr
      obtain ⟨t, r⟩ := tr
      have := zipIdx_get (List.mem_filter.1 htr).1
      show gIdx y i _ r = gAt y i t
      unfold gIdx
      rw [this]
      rfl
    rw [hone]
    generalize (genLoop hs).A = A
    induction A with
    | nil => simp [rowDot]
    | cons t A ih =>
      rw [List.filter_cons, rowDot_cons]
      by_cases hc : start hs p ≤ t.1 ∧ t.1 < start hs (p + 1)
      · rw [if_pos (by simpa using hc), List.map_cons, List.sum_cons, ih]
        by_cases hi : start hs p ≤ i ∧ i < start hs (p + 1)
        · rw [if_pos hi, if_pos hi]; rfl
        · rw [if_neg hi, if_neg hi, add_zero]
          unfold gAt
          rw [if_neg]
          rintro rfl
          exact hi hc
      · rw [if_neg (by simpa using hc), ih]
        by_cases hi : start hs p ≤ i ∧ i < start hs (p + 1)
        · rw [if_pos hi, if_pos hi, if_neg, zero_add]
          rintro rfl
          exact hc hi
        · rw [if_neg hi, if_neg hi]
  · intro p q h1 h2 h3 h4 hne r hr hr'
    obtain ⟨t, ht, a1, a2⟩ := hmem p h1 h2 r hr
    obtain ⟨t', ht', b1, b2⟩ := hmem q h3 h4 r hr'
    rw [ht] at ht'
    cases ht'
    rcases Nat.lt_or_gt_of_ne hne with hlt | hlt
    · have := start_mono hs (show p + 1 ≤ q by omega); omega
    · have := start_mono hs (show q + 1 ≤ p by omega); omega

end SGP

open SGP
variable {V K : Type} [DecidableEq V] [Field K] [LinearOrder K]

/-- The data are those of `gen`, up to the order of columns. -/
theorem inv_rows {hs : List (Hmap V K)} {nsp : Nat} {s : Prog V K} (hi : Inv hs nsp s) :
    s.cs = (genLoop s.hmaps).cs ∧ s.exps = (genLoop s.hmaps).exps ∧
      s.gen.mIdxs = (genLoop s.hmaps).mIdxs ∧ s.gen.pIdxs = (genLoop s.hmaps).pIdxs ∧ s.gen.meqAll = (genLoop s.hmaps).meqAll ∧
      s.gen.firstHalf = (genLoop s.hmaps).firstHalf ∧
      ∀ (Y : V → K) (y y' : Nat → K), (∀ j v, (s.gen.varlocs.map (·.1))[j]? = some v → y j = Y v) →
        (∀ j v, ((genLoop s.hmaps).varlocs.map (·.1))[j]? = some v → y' j = Y v) →
        ∀ i, i < s.exps.length → rowDot s.A y i = rowDot (genLoop s.hmaps).A y' i := by
  obtain ⟨k1, k2, k3, k4, _⟩ := genLoop_skel _ _ hi.skel
  refine ⟨by rw [hi.cs, gen_cs], by rw [hi.exps, gen_exps], by rw [hi.gen, k1], by rw [hi.gen, k2], by rw [hi.gen, k3],
    by rw [hi.gen, k4], ?_⟩
  intro Y y y' hy hy' i hlt
  obtain ⟨e, he⟩ : ∃ e, s.exps[i]? = some e := ⟨_, List.getElem?_eq_getElem hlt⟩
  have he' : (genLoop s.hmaps).exps[i]? = some e := by rw [gen_exps, ← hi.exps]; exact he
  rw [hi.row y i e he, gen_rowDot s.hmaps hi.nod y' i e he']
  have hem : ∃ t ∈ allTerms s.hmaps, t.1 = e := by
    have := List.mem_of_getElem? he
    rw [hi.exps] at this
    obtain ⟨t, ht, rfl⟩ := List.mem_map.1 this
    exact ⟨t, ht, rfl⟩
  obtain ⟨t, ht, rfl⟩ := hem
  have hidx : ∀ (l : List V) (v : V), v ∈ l → l[l.idxOf v]? = some v := by
    intro l v hv
    rw [List.getElem?_eq_getElem (List.idxOf_lt_length_of_mem hv), List.getElem_idxOf]
  unfold expDot
  congr 1
  apply List.map_congr_left
  intro vx hvx
  congr 1
  show y ((genLoop hs).varidx vx.1) = y' ((genLoop s.hmaps).varidx vx.1)
  rw [hy _ vx.1 (by rw [hi.gen]; exact hidx _ _ (hi.known t ht vx hvx))]
  refine (hy' _ vx.1 (hidx _ _ ?_)).symm
  have hloc' := (gen_expOK s.hmaps hi.nod).loc
  refine (locOK_mem hloc' vx.1).2 ⟨i, t.1, ?_, contains_iff_mem.2 (List.mem_map.2 ⟨vx, hvx, rfl⟩)⟩
  rw [← gen_exps]
  exact he'

/-- Only known variables can be written. -/
theorem replace_known {p : Nat} {h : Hmap V K} {s s' : Prog V K} (hr : replace p h s = .ok s') :
    ∀ t ∈ h.terms, ∀ vx ∈ t.1.items, vx.1 ∈ s.gen.varlocs.map (·.1) := by
  have hentry : ∀ (row : Nat) (l : List (V × K)) (f f' : Fill K), l.foldlM (entryStep (colOf s.gen) row) f = .ok f' →
      ∀ vx ∈ l, vx.1 ∈ s.gen.varlocs.map (·.1) := by
    intro row l
    induction l with
    | nil => intro _ _ _; simp
    | cons a l ih =>
      intro f f' h
      rw [List.foldlM_cons] at h
      cases h1 : entryStep (colOf s.gen) row f a with
      | error e => rw [h1] at h; cases h
      | ok f1 =>
        rw [h1] at h
        intro vx hvx
        rcases List.mem_cons.1 hvx with rfl | hvx
        · by_contra hn
          unfold entryStep colOf at h1
          rw [if_neg hn] at h1
          cases h1
        · exact ih f1 f' h vx hvx
  have hterm : ∀ (m : Nat) (l : List ((HV V K × K) × Nat)) (r r' : Rows V K), l.foldlM (termStep (colOf s.gen) m) r = .ok r' →
      ∀ tn ∈ l, ∀ vx ∈ tn.1.1.items, vx.1 ∈ s.gen.varlocs.map (·.1) := by
    intro m l
    induction l with
    | nil => intro _ _ _; simp
    | cons a l ih =>
      intro r r' h
      rw [List.foldlM_cons] at h
      cases h1 : termStep (colOf s.gen) m r a with
      | error e => rw [h1] at h; cases h
      | ok r1 =>
        rw [h1] at h
        intro tn htn
        rcases List.mem_cons.1 htn with rfl | htn
        · unfold termStep at h1
          split at h1
          · cases h2 : tn.1.1.items.foldlM (entryStep (colOf s.gen) (m + tn.2)) r.fill with
            | error e => rw [h2] at h1; cases h1
            | ok f => exact hentry _ _ _ _ h2
          · cases h1
        · exact ih r1 r' h tn htn
  unfold replace at hr
  split at hr
  · split at hr
    · cases hr
    · rename_i mm _
      cases h2 : h.terms.zipIdx.foldlM (termStep (colOf s.gen) mm.1) ⟨s.exps, s.cs, s.A, s.aIdxs p, []⟩ with
      | error e => rw [h2] at hr; cases hr
      | ok r =>
        intro t ht
        obtain ⟨i, hi⟩ := List.mem_iff_getElem?.1 ht
        exact hterm _ _ _ _ h2 (t, i) (List.mk_mem_zipIdx_iff_getElem?.2 hi)
  · cases hr

/-- **C19.** After any number of updates of the approximations, each with as many terms as the one it replaces and no new variable, the
program is the one `gen` would make from the current posynomials: nothing is raised, coefficients, exponents, blocks and equality indices
are the same, and so is every row of the matrix as a linear form in the variables (the columns may be in another order). -/
theorem C19_update (hs : List (Hmap V K)) (nsp : Nat) (hnsp : nsp < hs.length) (us : List (Nat × Hmap V K))
    (hw : ∀ h ∈ hs, ∀ t ∈ h.terms, (t.1.items.map (·.1)).Nodup)
    (hu : ∀ u ∈ us, 1 ≤ u.1 ∧ u.1 ≤ nsp ∧ (∀ h0, hs[u.1]? = some h0 → h0.terms.length = u.2.terms.length ∧ h0.fromMeq = u.2.fromMeq) ∧
      (∀ t ∈ u.2.terms, (t.1.items.map (·.1)).Nodup ∧ ∀ vx ∈ t.1.items, ∃ h ∈ hs, ∃ t' ∈ h.terms, vx.1 ∈ t'.1.items.map (·.1))) :
    ∃ s, replaceAll (initProg nsp hs) us = .ok s ∧
      s.hmaps = us.foldl (fun l u => l.set u.1 u.2) hs ∧ s.cs = (genLoop s.hmaps).cs ∧ s.exps = (genLoop s.hmaps).exps ∧
      s.gen.mIdxs = (genLoop s.hmaps).mIdxs ∧ s.gen.pIdxs = (genLoop s.hmaps).pIdxs ∧ s.gen.meqAll = (genLoop s.hmaps).meqAll ∧
      s.gen.firstHalf = (genLoop s.hmaps).firstHalf ∧
      ∀ (Y : V → K) (y y' : Nat → K), (∀ j v, (s.gen.varlocs.map (·.1))[j]? = some v → y j = Y v) →
        (∀ j v, ((genLoop s.hmaps).varlocs.map (·.1))[j]? = some v → y' j = Y v) →
        ∀ i, i < s.exps.length → rowDot s.A y i = rowDot (genLoop s.hmaps).A y' i := by
  have hw' : ∀ t ∈ allTerms hs, WF t.1.items := by
    intro t ht
    obtain ⟨h, hh, ht⟩ := List.mem_flatMap.1 ht
    exact GP.wf_nodup.2 (hw h hh t ht)
  have hloc := (gen_expOK hs hw').loc
  have hall : ∀ (us : List (Nat × Hmap V K)) (s : Prog V K), Inv hs nsp s → (∀ u ∈ us, 1 ≤ u.1 ∧ u.1 ≤ nsp ∧
      (∀ h0, hs[u.1]? = some h0 → h0.terms.length = u.2.terms.length ∧ h0.fromMeq = u.2.fromMeq) ∧
      (∀ t ∈ u.2.terms, (t.1.items.map (·.1)).Nodup ∧ ∀ vx ∈ t.1.items, ∃ h ∈ hs, ∃ t' ∈ h.terms, vx.1 ∈ t'.1.items.map (·.1))) →
      ∃ s', replaceAll s us = .ok s' ∧ Inv hs nsp s' ∧ s'.hmaps = us.foldl (fun l u => l.set u.1 u.2) s.hmaps := by
    intro us
    induction us with
    | nil => intro s hi _; exact ⟨s, rfl, hi, rfl⟩
    | cons u us ih =>
      intro s hi hu
      obtain ⟨u1, u2, u3, u4⟩ := hu u (by simp)
      obtain ⟨s1, hs1, hi1, hm1⟩ := replace_inv hnsp hi u.1 u.2 u1 u2 (by
        have hlt : u.1 < hs.length := by omega
        have hg := List.getElem?_eq_getElem hlt
        obtain ⟨a, b⟩ := u3 _ hg
        rw [hg, Option.map_some]
        unfold skel
        rw [a, b]) (by
        intro t ht vx hvx
        obtain ⟨h, hh, t', ht', hv⟩ := (u4 t ht).2 vx hvx
        have he : t'.1 ∈ (allTerms hs).map (·.1) := List.mem_map.2 ⟨t', List.mem_flatMap.2 ⟨h, hh, ht'⟩, rfl⟩
        obtain ⟨i, hi⟩ := List.mem_iff_getElem?.1 he
        exact (locOK_mem hloc vx.1).2 ⟨i, t'.1, hi, contains_iff_mem.2 hv⟩)
        (fun t ht => GP.wf_nodup.2 (u4 t ht).1)
      obtain ⟨s2, hs2, hi2, hm2⟩ := ih s1 hi1 (fun v hv => hu v (by simp [hv]))
      refine ⟨s2, ?_, hi2, by rw [hm2, hm1]; rfl⟩
      unfold replaceAll
      rw [List.foldlM_cons, hs1]
      exact hs2
  obtain ⟨s, hr, hi, hm⟩ := hall us _ (init_inv hs nsp hnsp hw') hu
  exact ⟨s, hr, hm, inv_rows hi⟩

/-- The program `x` subject to `y/x + 1/(x*y) <= 1` and `1/(2*y) <= 1`, the first of which is an approximation. -/
def sgpExample : List (Hmap String ℚ) :=
  [⟨[(⟨[("x", 1)]⟩, 1)], false⟩, ⟨[(⟨[("x", -1), ("y", 1)]⟩, 1), (⟨[("x", -1), ("y", -1)]⟩, 1)], false⟩, ⟨[(⟨[("y", -1)]⟩, 1 / 2)], false⟩]

/-- The hypotheses can be met: two updates with two terms each, the first of them with fewer entries in the matrix. -/
example : (replaceAll (initProg 1 sgpExample) [(1, ⟨[(⟨[("x", -2)]⟩, 3), (⟨[("x", -1)]⟩, 4)], false⟩),
      (1, ⟨[(⟨[("x", -2), ("y", 1)]⟩, 5), (⟨[("x", -1)]⟩, 6)], false⟩)]).toOption.map (fun s => (s.cs, s.A)) =
    some ([1, 5, 6, 1 / 2], [(0, 0, 1), (0, 0, 0), (2, 0, -1), (1, 1, 1), (1, 0, -2), (3, 1, -1)]) := by decide +kernel

/-- The restriction to updates with as many terms is needed. If the new approximation has one term fewer (a term became constant or two
became one), the old coefficient stays behind with a row of zeros: `2/x <= 1` becomes `2/x + 1 <= 1`. -/
theorem C19_fewer_terms_fails :
    (replaceAll (initProg 1 sgpExample) [(1, ⟨[(⟨[("x", -1)]⟩, 2)], false⟩)]).toOption.map
      (fun s => (s.gen.mIdxs[1]?, s.cs, s.A.filter (fun t => t.1 = 1 ∨ t.1 = 2))) =
        some (some (1, 3), [1, 2, 1, 1 / 2], [(1, 0, -1)]) ∧
    (genLoop (sgpExample.set 1 ⟨[(⟨[("x", -1)]⟩, 2)], false⟩)).cs = [1, 2, 1 / 2] := by decide +kernel

/-- If the new approximation has one term more, it overwrites the first term of the next constraint: `1/(2*y) <= 1` becomes
`7*x/y <= 1`. -/
theorem C19_more_terms_fails :
    (replaceAll (initProg 1 sgpExample)
        [(1, ⟨[(⟨[("x", -1), ("y", 1)]⟩, 5), (⟨[("x", -1), ("y", -1)]⟩, 6), (⟨[("x", 1)]⟩, 7)], false⟩)]).toOption.map
      (fun s => (s.gen.mIdxs[2]?, s.cs, s.A.filter (fun t => t.1 = 3))) =
        some (some (3, 4), [1, 5, 6, 7], [(3, 1, -1), (3, 0, 1)]) := by decide +kernel


/-! ## C18: the loop of localsolve -/

section C18
variable {F : Type} [Field F] [LinearOrder F] [IsStrictOrderedRing F]

/-- The number of solves made. -/
def SGP.Outcome.gps : Outcome F → Nat
  | .done s => s.gps
  | .limit s => s.gps
  | .failed s => s.gps

/-- C18, the loop ends: whatever the costs, tolerance and limit, after at most `iteration_limit + 1` successful solves `localsolve` returns
or raises. It raises because of the limit only after that many, so one solve more than the limit is made (`C18_limit_fails`). -/
theorem C18_ends_partial (eps reltol : F) (lim : Nat) (warns : Bool) (solve : Nat → Option F) :
    ∃ o, localsolve eps reltol lim warns solve = some o ∧ o.gps ≤ lim + 1 ∧ (∀ n, n < o.gps → ∃ c, solve n = some c) ∧
      (∀ s, o = .limit s → s.gps = lim + 1) ∧ (∀ s, o = .failed s → solve s.gps = none) := by
  obtain ⟨o, ho⟩ := localsolve_ends (eps := eps) (reltol := reltol) (lim := lim) (warns := warns) (solve := solve)
  obtain ⟨s, hi, hg, he⟩ := localsolve_inv ho
  refine ⟨o, ho, ?_⟩
  rcases localStep_end he with ⟨r, _, _, rfl⟩ | ⟨hl, rfl⟩ | ⟨hn, _, rfl⟩
  · exact ⟨hg, hi.all, by simp, by simp⟩
  · refine ⟨hg, hi.all, ?_, by simp⟩
    intro s' hs'
    cases hs'
    omega
  · refine ⟨hg, hi.all, by simp, ?_⟩
    intro s' hs'
    cases hs'
    exact hn

/-- C18, the limit: with a limit of one GP, two are solved. -/
theorem C18_limit_fails : ∃ s : Local ℚ, localsolve (1 / 1000000) (1 / 10000) 1 true (fun _ => some 1) = some (.done s) ∧ s.gps = 2 := by
  exact ⟨⟨2, some 1, some 0, false⟩, by decide +kernel, rfl⟩

/-- C18, convergence: if `localsolve` returns, the last two costs `p` and `c` satisfy `(p - c)/(p + c) <= reltol`. Unless warnings are off
the cost did not rise between them by more than the fixed tolerance, and if nothing was warned about no cost rose by more than it. -/
theorem C18_converged (eps reltol : F) (lim : Nat) (warns : Bool) (solve : Nat → Option F) (s : Local F)
    (h : localsolve eps reltol lim warns solve = some (.done s)) :
    (∃ n p c, s.gps = n + 2 ∧ solve n = some p ∧ solve (n + 1) = some c ∧ (p - c) / (p + c) ≤ reltol ∧
      (warns = true → c * (1 - eps) ≤ p + eps)) ∧
    (warns = true → s.warned = false → ∀ n p c, n + 1 < s.gps → solve n = some p → solve (n + 1) = some c → c * (1 - eps) ≤ p + eps) ∧
    (s.warned = true → ∃ n p c, n + 1 < s.gps ∧ solve n = some p ∧ solve (n + 1) = some c ∧ p + eps < c * (1 - eps)) := by
  obtain ⟨s', hi, _, he⟩ := localsolve_inv h
  rcases localStep_end he with ⟨r, hr, hle, ho⟩ | ⟨_, ho⟩ | ⟨_, _, ho⟩
  · cases ho
    obtain ⟨n, p, c, h1, h2, h3, _, rfl, h6⟩ := hi.rel r hr
    exact ⟨⟨n, p, c, h1, h2, h3, hle, h6⟩, hi.quiet, hi.loud⟩
  · cases ho
  · cases ho

/-- C18: with costs that do not rise, returning means that the relative distance of the last two costs is at most `reltol`. -/
theorem C18_distance_partial (eps reltol : F) (lim : Nat) (warns : Bool) (solve : Nat → Option F) (s : Local F)
    (h : localsolve eps reltol lim warns solve = some (.done s))
    (hmono : ∀ n p c, solve n = some p → solve (n + 1) = some c → c ≤ p) :
    ∃ n p c, s.gps = n + 2 ∧ solve n = some p ∧ solve (n + 1) = some c ∧ |p - c| / (p + c) ≤ reltol := by
  obtain ⟨⟨n, p, c, h1, h2, h3, h4, _⟩, _⟩ := C18_converged eps reltol lim warns solve s h
  refine ⟨n, p, c, h1, h2, h3, ?_⟩
  rwa [abs_of_nonneg (sub_nonneg.2 (hmono n p c h2 h3))]

/-- C18 fails if warnings are off: after costs 1 and 100 `localsolve` returns, although the relative distance is 99/101. -/
theorem C18_quiet_fails : ∃ s : Local ℚ, localsolve (1 / 1000000) (1 / 10000) 50 false (fun n => some (if n = 0 then 1 else 100)) =
    some (.done s) ∧ s.gps = 2 ∧ s.warned = false := by
  exact ⟨⟨2, some 100, some (-99 / 101), false⟩, by decide +kernel, rfl, rfl⟩

/-- C18 fails for small costs, as the tolerance for rising costs is absolute: after costs `1e-8` and `9e-7` (90 times as large)
`localsolve` returns without a warning. -/
theorem C18_small_fails : ∃ s : Local ℚ, localsolve (1 / 1000000) (1 / 10000) 50 true
    (fun n => some (if n = 0 then 1 / 100000000 else 9 / 10000000)) = some (.done s) ∧ s.gps = 2 ∧ s.warned = false := by
  exact ⟨⟨2, some (9 / 10000000), some (-89 / 91), false⟩, by decide +kernel, rfl, rfl⟩

/-- The hypotheses can be met: costs 4, 2, 2 converge after three solves. -/
example : ∃ s : Local ℚ, localsolve (1 / 1000000) (1 / 10000) 50 true (fun n => some (if n = 0 then 4 else 2)) = some (.done s) ∧
    s.gps = 3 ∧ s.warned = false := by
  exact ⟨⟨3, some 2, some 0, false⟩, by decide +kernel, rfl, rfl⟩

end C18

section C18cost
variable {W D : Type} [DecidableEq W] [AddCommGroup D] [Module ℝ D] [DecidableEq D]

/-- What one step of the sequence solves: the approximations `forms` of the signomial constraints, and the remaining constraints `G`. -/
def StepFeasible (G : (W → ℝ) → Prop) (forms : List (Nomial W ℝ D)) (x : W → ℝ) : Prop :=
  (∀ v, 0 < x v) ∧ G x ∧ ∀ f ∈ forms, termsVal x f.hmap.terms ≤ 1

/-- C18, costs: let each approximation be made at the previous solution, and let each GP be solved exactly. If the first guess satisfies all
constraints, then so does every solution, and the costs do not rise. The assumptions on the approximations are those of
`C17_inner_approximation_partial`, and that none of them is trivial. Without slack (`use_pccp=False`). -/
theorem C18_cost_partial {tol : ℝ} (htol : 0 ≤ tol) (cost : (W → ℝ) → ℝ) (G : (W → ℝ) → Prop) (sigs : List (Nomial W ℝ D))
    (vunits : W → Option (UnitQ D ℝ)) (ord : Orders W ℝ) (setord : List W → List W) (ho : ord.Valid) (hset : ∀ l, (setord l).Perm l)
    (hc : ∀ sig ∈ sigs, TermsTidy sig.hmap.terms) (hu : ∀ sig ∈ sigs, UnitOK sig.hmap.units)
    (x : Nat → W → ℝ) (x0 : Nat → PyDict W ℝ) (hx0 : ∀ n v, x n v = ((x0 n).get? v).getD 1) (hpos : ∀ v, 0 < x 0 v)
    (hguess : ∀ n v c, (x0 n).get? v = some c → 0 < c)
    (form : Nat → Nomial W ℝ D → Nomial W ℝ D)
    (happ : ∀ n, ∀ sig ∈ sigs, asGpconstr false tol sig vunits (x0 n) ord setord = .ok [form n sig])
    (hclash : ∀ n, ∀ sig ∈ sigs, ∀ posy negy m e c, sig.posyNegy false = .ok (some posy, some negy) →
      negy.monoLowerBound vunits (fillX0 negy.hmap.vks (x0 n)) ord (setord negy.hmap.vks) = .ok m →
      m.hmap.terms = [(e, c)] → NoClash e posy.hmap.terms)
    (hsolve : ∀ n, StepFeasible G (sigs.map (form n)) (x (n + 1)) ∧
      ∀ z, StepFeasible G (sigs.map (form n)) z → cost (x (n + 1)) ≤ cost z)
    (hstart : G (x 0) ∧ ∀ sig ∈ sigs, termsVal (x 0) sig.hmap.terms ≤ 0) (n : Nat) :
    (G (x n) ∧ ∀ sig ∈ sigs, termsVal (x n) sig.hmap.terms ≤ 0) ∧ cost (x (n + 1)) ≤ cost (x n) := by
  have hone : ∀ n, ∀ sig ∈ sigs, (∀ pt : W → ℝ, (∀ v, 0 < pt v) → termsVal pt (form n sig).hmap.terms ≤ 1 → termsVal pt sig.hmap.terms ≤ 0) ∧
      (termsVal (x n) sig.hmap.terms ≤ 0 → termsVal (x n) (form n sig).hmap.terms ≤ 1) := by
    intro n sig hs
    have := C17_inner_approximation_partial htol (hc sig hs) (hu sig hs) ho hset (hguess n) (hclash n sig hs) (happ n sig hs)
    rcases this with ⟨hnil, _⟩ | ⟨f, hf, _, h1, h2⟩
    · cases hnil
    · cases hf
      exact ⟨h1, h2 (x n) (hx0 n)⟩
  have hxpos : ∀ n v, 0 < x n v := by
    intro n
    cases n with
    | zero => exact hpos
    | succ n => exact (hsolve n).1.1
  have hfeas : ∀ n, G (x n) ∧ ∀ sig ∈ sigs, termsVal (x n) sig.hmap.terms ≤ 0 := by
    intro n
    cases n with
    | zero => exact hstart
    | succ n =>
      refine ⟨(hsolve n).1.2.1, ?_⟩
      intro sig hs
      exact (hone n sig hs).1 _ (hxpos _) ((hsolve n).1.2.2 _ (List.mem_map.2 ⟨sig, hs, rfl⟩))
  refine ⟨hfeas n, (hsolve n).2 _ ⟨hxpos n, (hfeas n).1, ?_⟩⟩
  intro f hf
  obtain ⟨sig, hs, rfl⟩ := List.mem_map.1 hf
  exact (hone n sig hs).2 ((hfeas n).2 sig hs)

/-- The hypotheses can be met: `min y` with `x >= 1` and `x**2 - y <= 0`, from the guess `x = y = 1` (which is optimal). -/
example :
    let sig : Nomial Bool ℝ ℤ := ⟨⟨[(⟨[(true, 2)]⟩, 1), (⟨[(false, 1)]⟩, -1)], none⟩, .signomial⟩
    ∃ f, asGpconstr false (1 / 1000) sig (fun _ => none) [] varlocs id = .ok [f] ∧
    (∀ posy negy m e c, sig.posyNegy false = .ok (some posy, some negy) →
      negy.monoLowerBound (fun _ => none) (fillX0 negy.hmap.vks []) varlocs (id negy.hmap.vks) = .ok m →
      m.hmap.terms = [(e, c)] → NoClash e posy.hmap.terms) ∧
    StepFeasible (fun z => 1 ≤ z true) [f] (fun _ => 1) ∧
    (∀ z, StepFeasible (fun z => 1 ≤ z true) [f] z → 1 ≤ z false) ∧ termsVal (fun _ => 1) sig.hmap.terms ≤ 0 := by
  intro sig
  have h : ∃ f, asGpconstr false (1 / 1000) sig (fun _ => none) [] varlocs id = .ok [f] ∧
      f.hmap.terms = [(⟨[(true, 2), (false, -1)]⟩, 1)] := by
    norm_num [sig, asGpconstr, Nomial.posyNegy, Nomial.posyNegyStep, Nomial.posyOrZero, Nomial.monoLowerBound,
      genUnsubbed, UnitCache.ratio, renameTerms, renameStep, List.foldlM, PyDict.get?, PyDict.set, PyDict.del,
      bind, pure, Except.bind, Except.pure, HV.beq_def, List.isPerm, HV.sub, HV.add, HV.scale, dictAdd, dictAddStep, dictScale, HV.empty,
      simplifyPosyIneq, wrapForm, mkSig, NMap.anyNonpositive, Except.map]
  obtain ⟨f, hf, ht⟩ := h
  refine ⟨f, hf, ?_, ⟨fun _ => one_pos, le_refl _, ?_⟩, ?_, ?_⟩
  · intro posy negy m e c h _ _
    have : posy.hmap.terms = [(⟨[(true, 2)]⟩, 1)] := by
      rw [(posyNegy_some (by simp [sig, wf_cons, HV.beq_def, List.isPerm]) h).1]; norm_num [sig]
    rw [this]
    simp [NoClash]
  · intro g hg
    rw [List.mem_singleton.1 hg, ht]
    norm_num [termsVal, monVal]
  · rintro z ⟨hz, h1, h2⟩
    have := h2 f (by simp)
    rw [ht] at this
    simp only [termsVal, monVal, List.map_cons, List.map_nil, List.sum_cons, List.sum_nil, List.prod_cons, List.prod_nil, Real.rpow_two,
      Real.rpow_neg_one, one_mul, mul_one, add_zero] at this
    have h0 := hz false
    have h3 : z true ^ 2 ≤ z false := by
      rwa [← div_eq_mul_inv, div_le_one h0] at this
    nlinarith
  · norm_num [sig, termsVal, monVal]

end C18cost

end Verif
