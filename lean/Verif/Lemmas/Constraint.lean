import Verif.Model.Constraint
import Verif.Props.Approx

/-! Division of all terms by a monomial in place, and moving the constant across an inequality. -/

set_option linter.unusedSectionVars false

namespace Verif
open PyDict

variable {V D : Type} [DecidableEq V] [AddCommGroup D] [DecidableEq D]

theorem getD_sub {a b : HV V ℝ} (ha : WF a.items) (hb : WF b.items) (k : V) :
    ((a.sub b).get? k).getD 0 = (a.get? k).getD 0 - (b.get? k).getD 0 := by
  unfold HV.sub HV.add HV.scale HV.get?
  simp only
  rw [getD_dictAdd ha (dictScale_wf hb _), get?_dictScale]
  cases PyDict.get? b.items k <;> simp [sub_eq_add_neg]

theorem get?_eq_of_getD {d : PyDict V ℝ} (hd : WF d) (hz : NZ d) (k : V) :
    d.get? k = if (d.get? k).getD 0 = 0 then none else some ((d.get? k).getD 0) := by
  cases h : d.get? k with
  | none => simp
  | some x =>
    have := hz (k, x) ((mem_iff_get? hd k x).2 h)
    simp at this
    simp [this]

/-- Canonical exponent vectors with the same exponents are equal as dicts. -/
theorem beq_of_getD {a b : HV V ℝ} (ha : ExpCanonical a.items) (hb : ExpCanonical b.items)
    (h : ∀ k, (a.get? k).getD 0 = (b.get? k).getD 0) : (a == b) = true := by
  obtain ⟨a1, a2⟩ := (expCanonical_iff _).1 ha
  obtain ⟨b1, b2⟩ := (expCanonical_iff _).1 hb
  apply HV.beq_iff.2
  apply perm_of_get?_eq a1 b1
  intro k
  rw [get?_eq_of_getD a1 a2, get?_eq_of_getD b1 b2]
  have := h k
  unfold HV.get? at this
  rw [this]

theorem sub_injective {a b m : HV V ℝ} (ha : ExpCanonical a.items) (hb : ExpCanonical b.items) (hm : WF m.items)
    (h : (a.sub m == b.sub m) = true) (hsa : WF (a.sub m).items) : (a == b) = true := by
  apply beq_of_getD ha hb
  intro k
  have h1 := getD_sub ((expCanonical_iff _).1 ha).1 hm k
  have h2 := getD_sub ((expCanonical_iff _).1 hb).1 hm k
  rw [hv_get?_congr hsa h] at h1
  linarith

/-- The in-place division does what it should if no quotient meets a term that is still to be divided. -/
theorem renameTerms_ok {mexp : HV V ℝ} {mc : ℝ} (hm : ExpCanonical mexp.items) (hmc : mc ≠ 0)
    {ts : PyDict (HV V ℝ) ℝ} (hc : TermsCanonical ts)
    (hclash : ts.Pairwise (fun s t => (s.1.sub mexp == t.1) = false)) :
    renameTerms mexp mc ts = .ok (ts.map (fun t => (t.1.sub mexp, t.2 / mc))) := by
  have hwf := ((termsCanonical_iff _).1 hc).1
  have hex : ∀ t ∈ ts, ExpCanonical t.1.items := fun t ht => (hc.1 t ht).1
  have key : ∀ (todo done : PyDict (HV V ℝ) ℝ), WF todo → (∀ t ∈ todo, ExpCanonical t.1.items) →
      todo.Pairwise (fun s t => (s.1.sub mexp == t.1) = false) →
      (∀ s ∈ done, ∀ t ∈ todo, (s.1 == t.1) = false) → (∀ s ∈ done, ∀ t ∈ todo, (s.1 == t.1.sub mexp) = false) →
      (todo.map (·.1)).foldlM (renameStep mexp mc) (todo ++ done) =
        .ok (done ++ todo.map (fun t => (t.1.sub mexp, t.2 / mc))) := by
    intro todo
    induction todo with
    | nil => intro done _ _ _ _ _; simp; rfl
    | cons t todo ih =>
      intro done h1 h2 h3 h4 h5
      obtain ⟨w1, w2⟩ := wf_cons.1 h1
      obtain ⟨p1, p2⟩ := List.pairwise_cons.1 h3
      obtain ⟨e, c⟩ := t
      rw [List.map_cons, List.foldlM_cons]
      have hstep : renameStep mexp mc ((e, c) :: todo ++ done) e =
          .ok (todo ++ (done ++ [(e.sub mexp, c / mc)])) := by
        unfold renameStep
        rw [List.cons_append, get?_cons, if_pos BEq.rfl]
        simp only
        rw [if_neg hmc, del_cons, if_pos BEq.rfl, set_of_not_contains]
        · rw [List.append_assoc]
        · rw [get?_eq_none_iff]
          intro q hq
          rcases List.mem_append.1 hq with hq | hq
          · have := p1 q hq
            simp only at this
            rw [BEq.comm]; exact this
          · exact h5 q hq (e, c) List.mem_cons_self
      rw [hstep]
      show (todo.map (·.1)).foldlM (renameStep mexp mc) (todo ++ (done ++ [(e.sub mexp, c / mc)])) = _
      rw [ih (done ++ [(e.sub mexp, c / mc)]) w2 (fun s hs => h2 s (List.mem_cons_of_mem _ hs)) p2]
      · simp
      · intro s hs t ht
        rcases List.mem_append.1 hs with hs | hs
        · exact h4 s hs t (List.mem_cons_of_mem _ ht)
        · simp at hs; rw [hs]; exact p1 t ht
      · intro s hs t ht
        rcases List.mem_append.1 hs with hs | hs
        · exact h5 s hs t (List.mem_cons_of_mem _ ht)
        · simp at hs; rw [hs]
          simp only
          by_contra hcon
          rw [Bool.not_eq_false] at hcon
          have he := h2 (e, c) List.mem_cons_self
          have := sub_injective he (h2 t (List.mem_cons_of_mem _ ht)) ((expCanonical_iff _).1 hm).1 hcon
            ((expCanonical_iff _).1 (HV.sub_canonical he hm)).1
          have h6 := w1 t ht
          simp only at h6
          rw [this] at h6; cases h6
  have := key ts [] hwf hex hclash (by simp) (by simp)
  simpa [renameTerms] using this

theorem quotient_canonical {mexp : HV V ℝ} {mc : ℝ} (hm : ExpCanonical mexp.items) (hmc : mc ≠ 0)
    {ts : PyDict (HV V ℝ) ℝ} (hc : TermsCanonical ts) :
    TermsCanonical (ts.map (fun t => (t.1.sub mexp, t.2 / mc))) := by
  rw [termsCanonical_iff] at *
  obtain ⟨h1, h2, h3⟩ := hc
  refine ⟨?_, ?_, ?_⟩
  · unfold WF
    rw [List.pairwise_map]
    refine List.Pairwise.imp_of_mem ?_ h1
    intro a b ha hb hab
    by_contra hcon
    rw [Bool.not_eq_false] at hcon
    have := sub_injective (h3 a ha) (h3 b hb) ((expCanonical_iff _).1 hm).1 hcon
      ((expCanonical_iff _).1 (HV.sub_canonical (h3 a ha) hm)).1
    rw [this] at hab; cases hab
  · intro p hp
    obtain ⟨t, ht, rfl⟩ := List.mem_map.1 hp
    exact div_ne_zero (h2 t ht) hmc
  · intro p hp
    obtain ⟨t, ht, rfl⟩ := List.mem_map.1 hp
    exact HV.sub_canonical (h3 t ht) hm

theorem quotient_val {pt : V → ℝ} (hpt : ∀ v, 0 < pt v) (mexp : HV V ℝ) {mc : ℝ} (hmc : mc ≠ 0)
    (ts : PyDict (HV V ℝ) ℝ) :
    termsVal pt (ts.map (fun t => (t.1.sub mexp, t.2 / mc))) * (mc * monVal pt mexp.items) = termsVal pt ts := by
  induction ts with
  | nil => simp
  | cons t ts ih =>
    rw [List.map_cons, termsVal_cons, termsVal_cons, add_mul, ih, monVal_sub hpt]
    have := (monVal_pos hpt mexp.items).ne'
    congr 1
    field_simp

theorem empty_beq_iff {e : HV V ℝ} : (HV.empty == e) = true ↔ e = HV.empty := by
  rw [HV.beq_iff]
  constructor
  · intro h
    obtain ⟨i⟩ := e
    have := h.symm.eq_nil
    simp only at this
    rw [this]; rfl
  · rintro rfl; exact List.Perm.refl _

theorem beq_empty_iff {e : HV V ℝ} : (e == HV.empty) = true ↔ e = HV.empty := by
  rw [BEq.comm]; exact empty_beq_iff

@[simp] theorem monVal_empty (pt : V → ℝ) : monVal pt (HV.empty : HV V ℝ).items = 1 := by simp [HV.empty, monVal]

/-- What a map says at a point, split into its constant and the rest. -/
theorem termsVal_split (pt : V → ℝ) {ts : PyDict (HV V ℝ) ℝ} {c : ℝ} (h : ts.get? HV.empty = some c) :
    termsVal pt ts = c + termsVal pt (ts.del HV.empty) := by
  rw [termsVal_eq_wsum pt (ts.del HV.empty), wsum_del (monVal_respects pt), h, ← termsVal_eq_wsum]
  simp

theorem del_dictScale {α : Type} [BEq α] (ts : PyDict α ℝ) (k : α) (c : ℝ) :
    (dictScale ts c).del k = dictScale (ts.del k) c := by
  induction ts with
  | nil => rfl
  | cons p ts ih =>
    obtain ⟨k', v⟩ := p
    have h1 : dictScale ((k', v) :: ts) c = (k', v * c) :: dictScale ts c := rfl
    rw [h1, del_cons, del_cons]
    by_cases hk : k' == k
    · rw [if_pos hk, if_pos hk]
    · rw [if_neg hk, if_neg hk, ih]; rfl

theorem del_length {α β : Type} [BEq α] {d : PyDict α β} {k : α} (h : d.get? k ≠ none) :
    (d.del k).length + 1 = d.length := by
  induction d with
  | nil => simp at h
  | cons q d ih =>
    obtain ⟨k', v'⟩ := q
    rw [del_cons]
    by_cases hk : k' == k
    · rw [if_pos hk]; simp
    · rw [if_neg hk]
      have : PyDict.get? d k ≠ none := by
        intro hn; apply h; rw [get?_cons, if_neg hk, hn]
      simp [← ih this]

/-- What `_simplify_posy_ineq` does, for maps whose other coefficients are not negative. -/
theorem simplify_spec {tol : ℝ} (htol : 0 ≤ tol) {ts : PyDict (HV V ℝ) ℝ} (hpos : ∀ t ∈ ts, 0 ≤ t.2) :
    match simplifyPosyIneq tol ts with
    | .ok none => ∃ c, ts = [(HV.empty, c)] ∧ c ≤ 1 + tol
    | .ok (some r) =>
      (ts.get? HV.empty = none ∧ r = ts) ∨
      (∃ c, ts.get? HV.empty = some c ∧ c < 1 ∧ r = dictScale (ts.del HV.empty) (1 - c)⁻¹ ∧ r ≠ []) ∨
      (∃ c, ts.get? HV.empty = some c ∧ 1 < c ∧ c ≤ 1 + tol ∧ r ≠ [] ∧ r = dictScale (ts.del HV.empty) (1 - c)⁻¹ ∧ ∀ t ∈ r, t.2 ≤ 0)
    | .error e => ∃ c, ts.get? HV.empty = some c ∧ 1 ≤ c ∧
        ((e = .primalInfeasible ∧ 1 + tol < c) ∨ (e = .zeroDivision ∧ c = 1 ∧ ts.del HV.empty ≠ [])) := by
  cases h : ts.get? HV.empty with
  | none =>
    have : simplifyPosyIneq tol ts = .ok (some ts) := by unfold simplifyPosyIneq; rw [h]
    rw [this]
    exact Or.inl ⟨rfl, rfl⟩
  | some c =>
    have hne : ts.get? HV.empty ≠ none := by rw [h]; simp
    by_cases h1 : -tol ≤ 1 - c ∧ ts.length = 1
    · have : simplifyPosyIneq tol ts = .ok none := by
        unfold simplifyPosyIneq; rw [h]; simp only; rw [if_pos h1]
      rw [this]
      refine ⟨c, ?_, by linarith [h1.1]⟩
      obtain ⟨⟨e, d⟩, hx⟩ := List.length_eq_one_iff.1 h1.2
      rw [hx, get?_cons] at h
      by_cases he : e == HV.empty
      · rw [if_pos he] at h; cases h
        rw [hx, beq_empty_iff.1 he]
      · rw [if_neg he] at h; cases h
    · have hlen : ts.del HV.empty ≠ [] ∨ 1 + tol < c := by
        by_cases h2 : ts.length = 1
        · right
          by_contra h3
          exact h1 ⟨by linarith [not_lt.1 h3], h2⟩
        · left
          intro h3
          have := del_length hne
          rw [h3] at this
          simp at this; omega
      by_cases h2 : 1 - c < -tol
      · have : simplifyPosyIneq tol ts = .error .primalInfeasible := by
          unfold simplifyPosyIneq; rw [h]; simp only; rw [if_neg h1, if_pos h2]
        rw [this]
        exact ⟨c, rfl, by linarith, Or.inl ⟨rfl, by linarith⟩⟩
      · have hne2 : ts.del HV.empty ≠ [] := hlen.resolve_right (by linarith)
        by_cases h3 : 1 - c = 0
        · have : simplifyPosyIneq tol ts = .error .zeroDivision := by
            unfold simplifyPosyIneq; rw [h]; simp only; rw [if_neg h1, if_neg h2, if_pos h3]
          rw [this]
          exact ⟨c, rfl, by linarith, Or.inr ⟨rfl, by linarith, hne2⟩⟩
        · have : simplifyPosyIneq tol ts = .ok (some ((dictScale ts (1 - c)⁻¹).del HV.empty)) := by
            unfold simplifyPosyIneq; rw [h]; simp only; rw [if_neg h1, if_neg h2, if_neg h3]
          rw [this, del_dictScale]
          right
          have hr : dictScale (ts.del HV.empty) (1 - c)⁻¹ ≠ [] := by
            unfold dictScale; simpa using hne2
          rcases lt_or_gt_of_ne h3 with h4 | h4
          · right
            refine ⟨c, rfl, by linarith, by linarith, hr, rfl, ?_⟩
            intro t ht
            unfold dictScale at ht
            obtain ⟨q, hq, rfl⟩ := List.mem_map.1 ht
            exact mul_nonpos_of_nonneg_of_nonpos (hpos q ((del_sublist _ _).subset hq)) (inv_nonpos.2 h4.le)
          · left
            exact ⟨c, rfl, by linarith, rfl, hr⟩

/-- Moving the constant across: `q/(1-c) ≤ 1` says the same as `c + q ≤ 1`. -/
theorem moved_iff (pt : V → ℝ) {ts : PyDict (HV V ℝ) ℝ} {c : ℝ} (h : ts.get? HV.empty = some c) (hc : c < 1) :
    termsVal pt (dictScale (ts.del HV.empty) (1 - c)⁻¹) ≤ 1 ↔ termsVal pt ts ≤ 1 := by
  rw [termsVal_dictScale, termsVal_split pt h, mul_comm, ← div_eq_mul_inv, div_le_one (by linarith)]
  constructor <;> intro h <;> linarith

theorem ratio_scale {a b : Option (UnitQ D ℝ)} {r : ℝ} (ha : UnitOK a) (hb : UnitOK b) (h : UnitCache.ratio a b = .ok r) :
    r * unitScale b = unitScale a ∧ 0 < r := by
  unfold UnitOK at ha hb
  unfold UnitCache.ratio UnitQ.float UnitQ.mul UnitQ.inv at h
  match a, b with
  | none, none => cases h; simp [unitScale]
  | some a, none =>
    simp only at h
    split_ifs at h
    · cases h; exact ⟨by simp [unitScale], ha⟩
  | none, some b =>
    simp only at h
    split_ifs at h
    · cases h; simp only [unitScale] at hb ⊢; exact ⟨by field_simp, inv_pos.2 hb⟩
  | some a, some b =>
    simp only at h
    split_ifs at h
    · cases h; simp only [unitScale] at ha hb ⊢; exact ⟨by field_simp, mul_pos ha (inv_pos.2 hb)⟩

/-- A property of the state that each step keeps is kept by the whole substitution. -/
theorem subRounds_inv {fixed : PyDict V ℝ} (P : SubState V ℝ → Prop)
    (hstep : ∀ s s' o vk cval, fixed.get? vk = some cval → P s → subinplace s o vk cval = .ok s' → P s') :
    ∀ (rounds : List (V × List (HV V ℝ))) (s s' : SubState V ℝ), P s → rounds.foldlM (subRound fixed) s = .ok s' → P s' := by
  intro rounds
  induction rounds with
  | nil => intro s s' hp h; cases h; exact hp
  | cons r rounds ih =>
    intro s s' hp h
    rw [List.foldlM_cons] at h
    obtain ⟨s1, h1, h2⟩ := except_bind_ok h
    refine ih s1 s' ?_ h2
    unfold subRound at h1
    cases hc : fixed.get? r.1 with
    | none => rw [hc] at h1; cases h1
    | some cval =>
      rw [hc] at h1
      simp only at h1
      have : ∀ (L : List (HV V ℝ)) (s s1 : SubState V ℝ), P s →
          L.foldlM (fun s o => subinplace s o r.1 cval) s = .ok s1 → P s1 := by
        intro L
        induction L with
        | nil => intro s s1 hp h; cases h; exact hp
        | cons o L ihL =>
          intro s s1 hp h
          rw [List.foldlM_cons] at h
          obtain ⟨s2, h3, h4⟩ := except_bind_ok h
          exact ihL s2 s1 (hstep s s2 o r.1 cval hc hp h3) h4
      exact this r.2 s s1 hp h1

theorem subAdd_nonneg {cp : PyDict (HV V ℝ) ℝ} (h : ∀ t ∈ cp, 0 ≤ t.2) (e : HV V ℝ) {v : ℝ} (hv : 0 ≤ v) :
    ∀ t ∈ subAdd cp e v, 0 ≤ t.2 := by
  have hset : ∀ (d : PyDict (HV V ℝ) ℝ) (k : HV V ℝ) (w : ℝ), (∀ t ∈ d, 0 ≤ t.2) → 0 ≤ w → ∀ t ∈ d.set k w, 0 ≤ t.2 := by
    intro d k w hd hw
    induction d with
    | nil => intro t ht; simp at ht; rw [ht]; exact hw
    | cons p d ih =>
      obtain ⟨k', w'⟩ := p
      intro t ht
      rw [set_cons] at ht
      split_ifs at ht
      · rcases List.mem_cons.1 ht with ht | ht
        · rw [ht]; exact hw
        · exact hd t (List.mem_cons_of_mem _ ht)
      · rcases List.mem_cons.1 ht with ht | ht
        · rw [ht]; exact hd _ List.mem_cons_self
        · exact ih (fun s hs => hd s (List.mem_cons_of_mem _ hs)) t ht
  unfold subAdd
  split
  · rename_i cur hcur
    obtain ⟨k', h1, _⟩ := exists_mem_of_get? hcur
    split_ifs
    · exact hset _ _ _ h (add_nonneg (h _ h1) hv)
    · exact fun t ht => h t ((del_sublist _ _).subset ht)
  · split_ifs
    · exact hset _ _ _ h hv
    · exact h

theorem subFill_nonneg {cp : PyDict (HV V ℝ) ℝ} (h : ∀ t ∈ cp, 0 ≤ t.2) : ∀ t ∈ subFill cp, 0 ≤ t.2 := by
  unfold subFill
  split_ifs with h1
  · rw [List.isEmpty_iff] at h1; subst h1; intro t ht; simp at ht; rw [ht]
  · exact h

/-- Substituting values that are not negative keeps coefficients from becoming negative. -/
theorem subState_nonneg {h : PyDict (HV V ℝ) ℝ} {fixed : PyDict V ℝ} {rounds : List (V × List (HV V ℝ))} {s : SubState V ℝ}
    (hwf : WF h) (hpos : ∀ t ∈ h, 0 ≤ t.2) (hfix : ∀ v c, fixed.get? v = some c → 0 ≤ c)
    (hs : subState h fixed rounds = .ok s) : ∀ t ∈ s.cp, 0 ≤ t.2 := by
  unfold subState at hs
  split_ifs at hs
  · cases hs; exact hpos
  · refine subRounds_inv (P := fun s => ∀ t ∈ s.cp, 0 ≤ t.2) ?_ rounds _ s ?_ hs
    · intro s s' o vk cval hc hp hi
      obtain ⟨e, x, _, _, _, _, h5⟩ := subinplace_ok hi
      rcases h5 with ⟨c, h6, h7, _⟩ | ⟨_, h7, _⟩
      · rw [h7]
        obtain ⟨k', h8, _⟩ := exists_mem_of_get? h6
        refine subFill_nonneg (subAdd_nonneg (fun t ht => hp t ((del_sublist _ _).subset ht)) _ ?_)
        exact mul_nonneg (Real.rpow_nonneg (hfix vk cval hc) _) (hp _ h8)
      · rw [h7]; exact hp
    · rw [subInit_eq hwf]; exact hpos

/-! ### Positive values -/

theorem set_pos {d : PyDict (HV V ℝ) ℝ} {k : HV V ℝ} {w : ℝ} (hd : ∀ t ∈ d, 0 < t.2) (hw : 0 < w) : ∀ t ∈ d.set k w, 0 < t.2 := by
  induction d with
  | nil => intro t ht; simp at ht; rw [ht]; exact hw
  | cons p d ih =>
    obtain ⟨k', w'⟩ := p
    intro t ht
    rw [set_cons] at ht
    split_ifs at ht
    · rcases List.mem_cons.1 ht with ht | ht
      · rw [ht]; exact hw
      · exact hd t (List.mem_cons_of_mem _ ht)
    · rcases List.mem_cons.1 ht with ht | ht
      · rw [ht]; exact hd _ List.mem_cons_self
      · exact ih (fun s hs => hd s (List.mem_cons_of_mem _ hs)) t ht

theorem set_ne_nil {α β : Type} [BEq α] (d : PyDict α β) (k : α) (v : β) : d.set k v ≠ [] := by
  cases d with
  | nil => simp
  | cons p d => obtain ⟨k', w⟩ := p; rw [set_cons]; split_ifs <;> simp

/-- With positive values merging is addition. -/
theorem subAdd_of_pos {cp : PyDict (HV V ℝ) ℝ} (h : ∀ t ∈ cp, 0 < t.2) (e : HV V ℝ) {v : ℝ} (hv : 0 < v) :
    subFill (subAdd cp e v) = cp.set e ((cp.get? e).getD 0 + v) := by
  have h1 : subAdd cp e v = cp.set e ((cp.get? e).getD 0 + v) := by
    unfold subAdd
    cases hg : cp.get? e with
    | none => simp only [Option.getD_none, zero_add]; rw [if_pos hv.ne']
    | some c =>
      obtain ⟨k', h1, _⟩ := exists_mem_of_get? hg
      have := h _ h1
      simp only [Option.getD_some]
      rw [if_pos (by intro h2; simp only at this; linarith)]
  rw [h1]
  unfold subFill
  rw [if_neg (by rw [List.isEmpty_iff]; exact set_ne_nil _ _ _)]

theorem subState_pos {h : PyDict (HV V ℝ) ℝ} {fixed : PyDict V ℝ} {rounds : List (V × List (HV V ℝ))} {s : SubState V ℝ}
    (hwf : WF h) (hpos : ∀ t ∈ h, 0 < t.2) (hfix : ∀ v c, fixed.get? v = some c → 0 < c)
    (hs : subState h fixed rounds = .ok s) : ∀ t ∈ s.cp, 0 < t.2 := by
  unfold subState at hs
  split_ifs at hs
  · cases hs; exact hpos
  · refine subRounds_inv (P := fun s => ∀ t ∈ s.cp, 0 < t.2) ?_ rounds _ s ?_ hs
    · intro s s' o vk cval hc hp hi
      obtain ⟨e, x, _, _, _, _, h5⟩ := subinplace_ok hi
      rcases h5 with ⟨c, h6, h7, _⟩ | ⟨_, h7, _⟩
      · rw [h7]
        obtain ⟨k', h8, _⟩ := exists_mem_of_get? h6
        have hdel : ∀ t ∈ s.cp.del e, 0 < t.2 := fun t ht => hp t ((del_sublist _ _).subset ht)
        have hv : 0 < pw cval x * c := mul_pos (Real.rpow_pos_of_pos (hfix vk cval hc) _) (hp _ h8)
        rw [subAdd_of_pos hdel _ hv]
        refine set_pos hdel (add_pos_of_nonneg_of_pos ?_ hv)
        cases hg : PyDict.get? (s.cp.del e) (e.del vk) with
        | none => simp
        | some c => obtain ⟨k', h1, _⟩ := exists_mem_of_get? hg; exact (hdel _ h1).le
      · rw [h7]; exact hp
    · rw [subInit_eq hwf]; exact hpos

theorem subState_emk {h : PyDict (HV V ℝ) ℝ} {fixed : PyDict V ℝ} {rounds : List (V × List (HV V ℝ))} {s : SubState V ℝ}
    (hwf : WF h) (hs : subState h fixed rounds = .ok s) : s.expmap.map (·.1) = h.map (·.1) := by
  unfold subState at hs
  split_ifs at hs
  · cases hs; simp
  · refine subRounds_inv (P := fun s => s.expmap.map (·.1) = h.map (·.1)) ?_ rounds _ s ?_ hs
    · intro s s' o vk cval _ hp hi
      obtain ⟨e, x, h1, _, _, _, h5⟩ := subinplace_ok hi
      have h2 : s.expmap.get? o ≠ none := by rw [h1]; simp
      rcases h5 with ⟨_, _, _, h7, _⟩ | ⟨_, _, _, ⟨_, h7⟩ | ⟨_, h7⟩⟩
      · rw [h7, map_fst_set h2]; exact hp
      · rw [h7, map_fst_set h2]; exact hp
      · rw [h7]; exact hp
    · rw [subInit_eq hwf]; simp

theorem pyIndex_some {l : List (HV V ℝ)} {e : HV V ℝ} (h : ∃ a ∈ l, (a == e) = true) : ∃ i, pyIndex l e = some i := by
  unfold pyIndex
  cases hf : l.findIdx? (· == e) with
  | some i => exact ⟨i, rfl⟩
  | none =>
    rw [List.findIdx?_eq_none_iff] at hf
    obtain ⟨a, h1, h2⟩ := h
    have := hf a h1
    rw [this] at h2; cases h2

/-- `mmap` raises nothing if no coefficient is zero. -/
theorem mmap_total {s : SubState V ℝ} {orig : PyDict (HV V ℝ) ℝ} (hk : s.expmap.map (·.1) = orig.map (·.1))
    (hnz : ∀ t ∈ s.cp, t.2 ≠ 0) : ∃ pmap, mmap s orig = .ok pmap := by
  unfold mmap
  have : ∀ (l : List (HV V ℝ × HV V ℝ)) (p : List (PyDict Nat ℝ)), (∀ q ∈ l, q ∈ s.expmap) →
      ∃ pmap, l.foldlM (mmapStep s orig) p = .ok pmap := by
    intro l
    induction l with
    | nil => intro p _; exact ⟨p, rfl⟩
    | cons q l ih =>
      intro p hl
      rw [List.foldlM_cons]
      have hstep : ∃ p', mmapStep s orig p q = .ok p' := by
        unfold mmapStep
        cases hg : s.cp.get? q.2 with
        | none => exact ⟨p, rfl⟩
        | some c =>
          simp only
          obtain ⟨k', h1, h2⟩ := exists_mem_of_get? hg
          have hq : q.1 ∈ orig.map (·.1) := by rw [← hk]; exact List.mem_map_of_mem (hl q List.mem_cons_self)
          obtain ⟨t, ht, htq⟩ := List.mem_map.1 hq
          obtain ⟨i, hi⟩ : ∃ i, pyIndex orig.keys q.1 = some i := pyIndex_some ⟨q.1, hq, by simp⟩
          obtain ⟨j, hj⟩ : ∃ j, pyIndex s.cp.keys q.2 = some j :=
            pyIndex_some ⟨k', List.mem_map_of_mem (f := (·.1)) h1, h2⟩
          have hc : ∃ co, (s.csmap.get? q.1 <|> orig.get? q.1) = some co := by
            cases hcs : s.csmap.get? q.1 with
            | some co => exact ⟨co, rfl⟩
            | none =>
              cases ho : orig.get? q.1 with
              | some co => exact ⟨co, rfl⟩
              | none =>
                rw [get?_eq_none_iff] at ho
                have := ho t ht
                rw [htq] at this; simp at this
          obtain ⟨co, hco⟩ := hc
          rw [hi, hj, hco]
          simp only
          rw [if_neg (hnz _ h1)]
          exact ⟨_, rfl⟩
      obtain ⟨p', hp'⟩ := hstep
      rw [hp']
      exact ih p' (fun q hq => hl q (List.mem_cons_of_mem _ hq))
  exact this _ _ (fun q h => h)

end Verif
