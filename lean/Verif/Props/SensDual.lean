import Verif.Spec.SolverForm
import Verif.Model.Constraint
import Verif.Model.SolveHistory
import Verif.Props.Share
import Verif.Props.CostSens

/-!
# C16: reported sensitivities are logarithmic derivatives; C49: they do not depend on earlier solves
-/

set_option linter.unusedSectionVars false

namespace Verif
open PyDict

section
variable {V : Type} [DecidableEq V]

/-! ## Sums -/

theorem sensAt_addSensItems {e : PyDict V ℝ} (he : WF e) (acc : PyDict V ℝ) (nu : ℝ) (v : V) :
    sensAt (e.foldl (fun acc kx => acc.set kx.1 (nu * kx.2 + (acc.get? kx.1).getD 0)) acc) v = sensAt acc v + nu * (e.get? v).getD 0 := by
  induction e generalizing acc with
  | nil => simp
  | cons p e ih =>
    obtain ⟨k, x⟩ := p
    obtain ⟨h1, h2⟩ := wf_cons.1 he
    rw [List.foldl_cons, ih h2, sensAt_set, get?_cons]
    by_cases hk : k = v
    · subst hk
      have : PyDict.get? e k = none := get?_eq_none_iff.2 (fun q hq => by rw [BEq.comm]; exact h1 q hq)
      rw [this]
      simp only [if_true, beq_self_eq_true, Option.getD_none, Option.getD_some, mul_zero, add_zero, sensAt]
      ring
    · simp [hk]

theorem sensAt_sensOfNu {h : PyDict (HV V ℝ) ℝ} (hw : ∀ t ∈ h, WF t.1.items) (φ : HV V ℝ × ℝ → ℝ) (v : V) :
    sensAt (sensOfNu h (h.map φ)) v = (h.map (fun t => φ t * expo t.1 v)).sum := by
  unfold sensOfNu
  have : ∀ acc : PyDict V ℝ, sensAt ((h.zip (h.map φ)).foldl (fun acc tn => addSens acc tn.1.1 tn.2) acc) v =
      sensAt acc v + (h.map (fun t => φ t * expo t.1 v)).sum := by
    induction h with
    | nil => intro acc; simp
    | cons t h ih =>
      intro acc
      rw [List.map_cons, List.zip_cons_cons, List.foldl_cons, ih (fun s hs => hw s (List.mem_cons_of_mem _ hs)), List.map_cons, List.sum_cons]
      unfold addSens
      rw [sensAt_addSensItems (hw t List.mem_cons_self)]
      unfold expo HV.get?
      ring
  rw [this]
  simp [sensAt]

theorem addShares_eq (w : HV V ℝ × ℝ → ℝ) (vs : List V) (u : HV V ℝ × ℝ) (f : ℝ) (g : HV V ℝ × ℝ → ℝ) : ∀ (h : PyDict (HV V ℝ) ℝ) (front : List ℝ),
    addShares (front ++ h.map g) (((h.zipIdx front.length).filter (fun q => strip vs q.1.1 == u.1)).map (fun q => (q.2, w q.1 / u.2))) f =
      front ++ h.map (fun t => g t + if strip vs t.1 == u.1 then w t / u.2 * f else 0) := by
  intro h
  induction h with
  | nil => intro front; simp [addShares]
  | cons t h ih =>
    intro front
    rw [List.zipIdx_cons, List.filter_cons]
    have hass : ∀ (y : ℝ) (l : List ℝ), front ++ y :: l = (front ++ [y]) ++ l := by intro y l; simp
    have hlen : ∀ y : ℝ, (front ++ [y]).length = front.length + 1 := by intro y; simp
    by_cases hb : strip vs t.1 == u.1
    · simp only [hb, if_true, List.map_cons]
      have h1 := ih (front ++ [g t + w t / u.2 * f])
      rw [hlen, ← hass, ← hass] at h1
      rw [← h1]
      unfold addShares
      rw [List.foldl_cons]
      congr 1
      rw [List.modify_eq_take_cons_drop (by simp)]
      simp
    · simp only [hb, if_false, List.map_cons, Bool.false_eq_true, add_zero]
      have h1 := ih (front ++ [g t])
      rw [hlen, ← hass, ← hass] at h1
      exact h1

theorem fold_addShares (w : HV V ℝ × ℝ → ℝ) (vs : List V) (h : PyDict (HV V ℝ) ℝ) (F : HV V ℝ × ℝ → ℝ) : ∀ (l : PyDict (HV V ℝ) ℝ) (g : HV V ℝ × ℝ → ℝ),
    ((l.map (shareList w vs h)).zip (l.map F)).foldl (fun acc sn => addShares acc sn.1 sn.2) (h.map g) =
      h.map (fun t => g t + ((l.filter (fun u => strip vs t.1 == u.1)).map (fun u => w t / u.2 * F u)).sum) := by
  intro l
  induction l with
  | nil => intro g; simp
  | cons u l ih =>
    intro g
    rw [List.map_cons, List.map_cons, List.zip_cons_cons, List.foldl_cons]
    have h1 := addShares_eq w vs u (F u) g h []
    simp only [List.nil_append, List.length_nil] at h1
    have h2 : addShares (h.map g) (shareList w vs h u) (F u) = h.map (fun t => g t + if strip vs t.1 == u.1 then w t / u.2 * F u else 0) := h1
    rw [h2, ih]
    apply List.map_congr_left
    intro t _
    rw [List.filter_cons]
    by_cases hb : strip vs t.1 == u.1
    · simp only [hb, if_true, List.map_cons, List.sum_cons]; ring
    · simp [hb]

/-- Exactly one key of a dict equals a key that it contains. -/
theorem filter_key {cp : PyDict (HV V ℝ) ℝ} (hwf : WF cp) {e : HV V ℝ} {c : ℝ} (he : cp.get? e = some c) :
    ∃ u, cp.filter (fun u => e == u.1) = [u] ∧ (e == u.1) = true ∧ u.2 = c := by
  induction cp with
  | nil => simp at he
  | cons p cp ih =>
    obtain ⟨h1, h2⟩ := wf_cons.1 hwf
    rw [List.filter_cons]
    rw [get?_cons] at he
    by_cases hb : p.1 == e
    · have hb' : (e == p.1) = true := BEq.symm hb
      refine ⟨p, ?_, hb', ?_⟩
      · simp only [hb', if_true, List.cons.injEq, true_and]
        rw [List.filter_eq_nil_iff]
        intro q hq hqe
        have := h1 q hq
        rw [BEq.trans hb hqe] at this; cases this
      · rw [if_pos hb] at he; injection he
    · rw [if_neg hb] at he
      have hb' : (e == p.1) = false := by rw [BEq.comm]; simpa using hb
      rw [if_neg (by rw [hb']; simp)]
      exact ih h2 he

/-! ## The form -/

theorem allFixed_iff {h : PyDict (HV V ℝ) ℝ} {fixed : PyDict V ℝ} {t : HV V ℝ × ℝ} (ht : t ∈ h) (hw : WF t.1.items) :
    allFixed fixed.contains t = (strip (varlocKeys h fixed) t.1 == HV.empty) := by
  have hk : ∀ kx ∈ t.1.items, (kx.1 ∈ varlocKeys h fixed ↔ fixed.contains kx.1 = true) := by
    intro kx hkx
    rw [mem_varlocKeys]
    constructor
    · exact fun h1 => h1.2
    · intro h1
      refine ⟨⟨t, ht, ?_⟩, h1⟩
      unfold HV.get?
      rw [get?_of_mem hw hkx]; simp
  rw [Bool.eq_iff_iff, HV.beq_iff]
  unfold allFixed strip HV.empty
  simp only [List.all_eq_true]
  constructor
  · intro h1
    have : t.1.items.filter (fun kx => !(varlocKeys h fixed).contains kx.1) = [] := by
      rw [List.filter_eq_nil_iff]
      intro kx hkx
      have := (hk kx hkx).2 (h1 kx hkx)
      simp [this]
    rw [this]
  · intro h1 kx hkx
    have h2 := List.perm_nil.1 h1
    rw [List.filter_eq_nil_iff] at h2
    have := h2 kx hkx
    rw [← hk kx hkx]
    simpa using this

theorem termsVal_filter (p : HV V ℝ × ℝ → Bool) (x : V → ℝ) (h : PyDict (HV V ℝ) ℝ) :
    termsVal x h = termsVal x (h.filter (fun t => !p t)) + termsVal x (h.filter p) := by
  induction h with
  | nil => simp [termsVal]
  | cons t h ih =>
    rw [termsVal_cons, ih, List.filter_cons, List.filter_cons]
    by_cases hp : p t
    · simp only [hp, Bool.not_true, Bool.false_eq_true, if_false, if_true, termsVal_cons]; ring
    · simp only [hp, Bool.not_false, if_false, if_true, termsVal_cons, Bool.false_eq_true]; ring

theorem logGrad_split (p : HV V ℝ × ℝ → Bool) (x : V → ℝ) (h : PyDict (HV V ℝ) ℝ) (v : V) :
    logGrad x h v = logGrad x (h.filter (fun t => !p t)) v + logGrad x (h.filter p) v := by
  unfold logGrad
  induction h with
  | nil => simp
  | cons t h ih =>
    rw [List.map_cons, List.sum_cons, ih, List.filter_cons, List.filter_cons]
    by_cases hp : p t
    · simp only [hp, Bool.not_true, Bool.false_eq_true, if_false, if_true, List.map_cons, List.sum_cons]; ring
    · simp only [hp, Bool.not_false, if_false, if_true, List.map_cons, List.sum_cons, Bool.false_eq_true]; ring

/-- The constant term after substitution is the sum of the terms without free variables. -/
theorem Shared.const {h : PyDict (HV V ℝ) ℝ} {fixed : PyDict V ℝ} {s : SubState V ℝ} {w : HV V ℝ × ℝ → ℝ} (hc : TermsCanonical h)
    (hs : Shared h fixed s w) (pt : V → ℝ) : (s.cp.get? HV.empty).getD 0 = termsVal (override pt fixed) (h.filter (allFixed fixed.contains)) := by
  have hw' : ∀ t ∈ h, WF t.1.items := fun t ht => ((expCanonical_iff _).1 (hc.1 t ht).1).1
  have hfil : h.filter (allFixed fixed.contains) = h.filter (fun t => strip (varlocKeys h fixed) t.1 == HV.empty) := by
    apply List.filter_congr
    intro t ht
    exact allFixed_iff ht (hw' t ht)
  rw [hfil]
  cases hg : s.cp.get? HV.empty with
  | none =>
    have : h.filter (fun t => strip (varlocKeys h fixed) t.1 == HV.empty) = [] := by
      rw [List.filter_eq_nil_iff]
      intro t ht hb
      have := hs.k t ht
      rw [contains_congr _ hb] at this
      unfold PyDict.contains at this
      rw [hg] at this; cases this
    rw [this]; simp [termsVal]
  | some c =>
    obtain ⟨k, hk1, hk2⟩ := exists_mem_of_get? hg
    have h1 := hs.coef hc hk1
    simp only [Option.getD_some]
    simp only at h1
    rw [h1]
    unfold termsVal
    have hfil2 : h.filter (fun t => strip (varlocKeys h fixed) t.1 == k) = h.filter (fun t => strip (varlocKeys h fixed) t.1 == HV.empty) := by
      apply List.filter_congr
      intro t _
      exact beq_congr_right hk2
    rw [hfil2]
    congr 1
    apply List.map_congr_left
    intro t ht
    obtain ⟨ht1, ht2⟩ := List.mem_filter.1 ht
    have := (hs.ok t ht1).2 (override pt fixed) (override_agrees pt fixed)
    rw [← this, monVal_perm (HV.beq_iff.1 ht2)]
    simp [monVal, HV.empty]

theorem pyIndex_getElem {cp : PyDict (HV V ℝ) ℝ} {e : HV V ℝ} {c : ℝ} (he : cp.get? e = some c) :
    ∃ j k, pyIndex cp.keys e = some j ∧ cp[j]? = some (k, c) ∧ (k == e) = true ∧ cp.eraseIdx j = cp.del e := by
  induction cp with
  | nil => simp at he
  | cons p cp ih =>
    obtain ⟨k, x⟩ := p
    rw [get?_cons] at he
    by_cases hb : k == e
    · rw [if_pos hb] at he
      injection he with he
      refine ⟨0, k, ?_, by simp [he], hb, ?_⟩
      · simp [pyIndex, PyDict.keys, List.findIdx?_cons, hb]
      · rw [del_cons, if_pos hb]; rfl
    · rw [if_neg hb] at he
      obtain ⟨j, k', h1, h2, h3, h4⟩ := ih he
      refine ⟨j + 1, k', ?_, by simpa using h2, h3, ?_⟩
      · unfold pyIndex PyDict.keys at h1 ⊢
        rw [List.map_cons, List.findIdx?_cons, if_neg hb, h1]; rfl
      · rw [del_cons, if_neg hb, List.eraseIdx_cons_succ, h4]

/-- What the constraint remembers after making its form. -/
structure Formed (h : PyDict (HV V ℝ) ℝ) (fixed : PyDict V ℝ) (cp : PyDict (HV V ℝ) ℝ) (w : HV V ℝ × ℝ → ℝ) (m0 m : Memo ℝ) (ts : PyDict (HV V ℝ) ℝ) : Prop where
  /-- with or without a constant term -/
  parts : (cp.get? HV.empty = none ∧ ts = cp ∧ m = { m0 with pmap := some (cp.map (shareList w (varlocKeys h fixed) h)) }) ∨
    ∃ k c, cp.get? HV.empty = some c ∧ (k == HV.empty) = true ∧ 1 - c ≠ 0 ∧ ts = dictScale (cp.del HV.empty) (1 - c)⁻¹ ∧
      (cp.del HV.empty ++ [(k, c)]).Perm cp ∧
      m = ⟨some ((cp.del HV.empty).map (shareList w (varlocKeys h fixed) h)), some (shareList w (varlocKeys h fixed) h (k, c)), some (1 - c)⟩
  /-- the check for signomials was passed -/
  pos : ∀ t ∈ ts, 0 < t.2

theorem formed_of_step {feastol : ℝ} {h : PyDict (HV V ℝ) ℝ} {fixed : PyDict V ℝ} {rounds : List (V × List (HV V ℝ))} {s : SubState V ℝ} {w : HV V ℝ × ℝ → ℝ}
    (hs : Shared h fixed s w) (hc : TermsCanonical h) (hsub : subState h fixed rounds = .ok s) {m0 m : Memo ℝ} {ts : PyDict (HV V ℝ) ℝ}
    (hf : formStep feastol h fixed rounds m0 = (.ok [ts], m)) : Formed h fixed s.cp w m0 m ts := by
  unfold formStep at hf
  rw [hsub] at hf
  simp only at hf
  rw [hs.mmap hc] at hf
  simp only [Prod.mk.injEq] at hf
  obtain ⟨h1, h2⟩ := hf
  have hcheck : simplifyPosyIneq feastol s.cp = .ok (some ts) ∧ ∀ t ∈ ts, 0 < t.2 := by
    unfold checkForm at h1
    cases hsim : simplifyPosyIneq feastol s.cp with
    | error e => rw [hsim] at h1; cases h1
    | ok o =>
      rw [hsim] at h1
      cases o with
      | none => simp at h1
      | some ts' =>
        simp only at h1
        split_ifs at h1 with hany
        simp only [Except.ok.injEq, List.cons.injEq, and_true] at h1
        subst h1
        refine ⟨rfl, ?_⟩
        intro t ht
        by_contra hle
        apply hany
        rw [List.any_eq_true]
        exact ⟨t, ht, by simpa using hle⟩
  refine ⟨?_, hcheck.2⟩
  have hsim := hcheck.1
  unfold simplifyPosyIneq at hsim
  cases hg : s.cp.get? HV.empty with
  | none =>
    left
    rw [hg] at hsim
    simp only [Except.ok.injEq, Option.some.injEq] at hsim
    refine ⟨rfl, hsim.symm, ?_⟩
    rw [← h2]
    unfold noteConst
    rw [hg]
  | some c =>
    right
    rw [hg] at hsim
    simp only at hsim
    split at hsim
    · simp at hsim
    split at hsim
    · cases hsim
    split at hsim
    · cases hsim
    rename_i h3 h4 h5
    simp only [Except.ok.injEq, Option.some.injEq] at hsim
    obtain ⟨j, k, h6, h7, h8, h9⟩ := pyIndex_getElem hg
    refine ⟨k, c, rfl, h8, h5, ?_, ?_, ?_⟩
    · rw [← hsim, del_dictScale]
    · rw [← h9]
      have hj := (List.getElem?_eq_some_iff.1 h7)
      obtain ⟨hj1, hj2⟩ := hj
      have := List.getElem_cons_eraseIdx_perm hj1
      rw [hj2] at this
      exact (List.perm_append_singleton _ _).trans this
    · rw [← h2]
      unfold noteConst
      rw [hg]
      have h6' : pyIndex (s.cp.map (·.1)) HV.empty = some j := h6
      rw [h6']
      simp only [Memo.mk.injEq, Option.some.injEq, and_true]
      constructor
      · rw [List.eraseIdx_map, h9]
      · rw [List.getElem?_map, h7]; rfl

/-- The value of the form that is handed to the solver. -/
theorem Formed.val {h : PyDict (HV V ℝ) ℝ} {fixed : PyDict V ℝ} {s : SubState V ℝ} {w : HV V ℝ × ℝ → ℝ} {m0 m : Memo ℝ} {ts : PyDict (HV V ℝ) ℝ}
    (hc : TermsCanonical h) (hs : Shared h fixed s w) (hf : Formed h fixed s.cp w m0 m ts) (pt : V → ℝ) :
    termsVal pt ts = formVal fixed.contains (override pt fixed) h := by
  unfold formVal
  have hsplit := termsVal_filter (allFixed fixed.contains) (override pt fixed) h
  have hconst := hs.const hc pt
  have hval := hs.val pt
  rcases hf.parts with ⟨h1, h2, _⟩ | ⟨k, c, h1, h2, h3, h4, h5, _⟩
  · rw [h1] at hconst
    simp only [Option.getD_none] at hconst
    rw [← hconst] at hsplit ⊢
    rw [h2, hval, hsplit]; ring
  · rw [h1] at hconst
    simp only [Option.getD_some] at hconst
    rw [← hconst] at hsplit ⊢
    rw [h4, termsVal_dictScale]
    have hsum : termsVal pt s.cp = termsVal pt (s.cp.del HV.empty) + c := by
      have h6 : (s.cp.map (fun t => t.2 * monVal pt t.1.items)).sum = ((s.cp.del HV.empty ++ [(k, c)]).map (fun t => t.2 * monVal pt t.1.items)).sum :=
        ((h5.map _).sum_eq).symm
      have hk : k.items = [] := List.perm_nil.1 (HV.beq_iff.1 h2)
      have h7 : monVal pt k.items = 1 := by rw [hk]; simp [monVal]
      rw [List.map_append, List.sum_append] at h6
      simp only [List.map_cons, List.map_nil, List.sum_cons, List.sum_nil, add_zero, h7, mul_one] at h6
      exact h6
    have : termsVal pt (s.cp.del HV.empty) = termsVal (override pt fixed) (h.filter (fun t => !allFixed fixed.contains t)) := by linarith
    rw [this]; field_simp

/-- The sensitivities are the gradient of the left side before substitution, divided by what is left on the right side. -/
theorem Formed.sens {h : PyDict (HV V ℝ) ℝ} {fixed : PyDict V ℝ} {s : SubState V ℝ} {w : HV V ℝ × ℝ → ℝ} {m0 m : Memo ℝ} {ts : PyDict (HV V ℝ) ℝ}
    (hc : TermsCanonical h) (hs : Shared h fixed s w) (hm0 : m0.constMmap = none) (hf : Formed h fixed s.cp w m0 m ts) (la : ℝ) (pt : V → ℝ) (v : V) :
    sensAt (sensFromDual h m la (termDuals la pt ts)).1 v =
      la * (logGrad (override pt fixed) h v / (1 - termsVal (override pt fixed) (h.filter (allFixed fixed.contains)))) := by
  have hw' : ∀ t ∈ h, WF t.1.items := fun t ht => ((expCanonical_iff _).1 (hc.1 t ht).1).1
  have hcw := ((termsCanonical_iff _).1 hs.canon).1
  have hconst := hs.const hc pt
  -- the contribution of one term, whatever the common factor
  have hone : ∀ (r : ℝ), ∀ t ∈ h, ((s.cp.filter (fun u => strip (varlocKeys h fixed) t.1 == u.1)).map
      (fun u => w t / u.2 * (la * (r * (u.2 * monVal pt u.1.items))))).sum = la * r * (t.2 * monVal (override pt fixed) t.1.items) := by
    intro r t ht
    obtain ⟨c, hcc⟩ := contains_iff.1 (hs.k t ht)
    obtain ⟨u, hu1, hu2, hu3⟩ := filter_key hcw hcc
    rw [hu1]
    have hum : u ∈ s.cp := by
      have : u ∈ s.cp.filter (fun u => strip (varlocKeys h fixed) t.1 == u.1) := by rw [hu1]; simp
      exact List.mem_of_mem_filter this
    have hu0 := (hs.pos u hum).ne'
    simp only [List.map_cons, List.map_nil, List.sum_cons, List.sum_nil, add_zero]
    have h1 := (hs.ok t ht).2 (override pt fixed) (override_agrees pt fixed)
    rw [← h1, monVal_strip_override ht (hw' t ht), monVal_perm (HV.beq_iff.1 hu2)]
    field_simp
  have hlift : liftNu h m la (termDuals la pt ts) =
      h.map (fun t => la * (1 - (s.cp.get? HV.empty).getD 0)⁻¹ * (t.2 * monVal (override pt fixed) t.1.items)) := by
    unfold liftNu
    rcases hf.parts with ⟨h1, h2, h3⟩ | ⟨k, c, h1, h2, h3, h4, h5, h6⟩
    · rw [h3]
      simp only [hm0]
      have h7 := fold_addShares w (varlocKeys h fixed) h (fun u => la * (u.2 * monVal pt u.1.items)) s.cp (fun _ => 0)
      unfold termDuals
      rw [h2, h7, h1]
      apply List.map_congr_left
      intro t ht
      have h8 := hone 1 t ht
      simp only [one_mul, mul_one] at h8
      rw [zero_add, h8]
      simp
    · rw [h6]
      simp only
      have h7 := fold_addShares w (varlocKeys h fixed) h (fun u => la * ((1 - c)⁻¹ * (u.2 * monVal pt u.1.items))) (s.cp.del HV.empty) (fun _ => 0)
      have h8 : termDuals la pt ts = (s.cp.del HV.empty).map (fun u => la * ((1 - c)⁻¹ * (u.2 * monVal pt u.1.items))) := by
        unfold termDuals
        rw [h4]
        unfold dictScale
        rw [List.map_map]
        apply List.map_congr_left
        intro u _
        simp only [Function.comp]
        ring
      rw [h8, h7]
      have h9 := addShares_eq w (varlocKeys h fixed) (k, c) (la * ((1 - (1 - c)) / (1 - c)))
        (fun t => 0 + (((s.cp.del HV.empty).filter (fun u => strip (varlocKeys h fixed) t.1 == u.1)).map
          (fun u => w t / u.2 * (la * ((1 - c)⁻¹ * (u.2 * monVal pt u.1.items))))).sum) h []
      simp only [List.nil_append, List.length_nil] at h9
      refine Eq.trans h9 ?_
      apply List.map_congr_left
      intro t ht
      rw [h1]
      simp only [Option.getD_some, zero_add]
      rw [← hone _ t ht]
      have hperm := ((h5.filter (fun u => strip (varlocKeys h fixed) t.1 == u.1)).map
        (fun u => w t / u.2 * (la * ((1 - c)⁻¹ * (u.2 * monVal pt u.1.items))))).sum_eq
      rw [← hperm, List.filter_append, List.map_append, List.sum_append]
      congr 1
      rw [List.filter_cons]
      by_cases hb : strip (varlocKeys h fixed) t.1 == k
      · have hk : k.items = [] := List.perm_nil.1 (HV.beq_iff.1 h2)
        simp only [hb, if_true, List.filter_nil, List.map_cons, List.map_nil, List.sum_cons, List.sum_nil, add_zero]
        have h10 : monVal pt k.items = 1 := by rw [hk]; simp [monVal]
        rw [h10]
        ring
      · simp [hb]
  show sensAt (sensOfNu h (liftNu h m la (termDuals la pt ts))) v = _
  rw [hlift, sensAt_sensOfNu hw', hconst]
  unfold logGrad
  rw [div_eq_mul_inv, ← List.sum_map_mul_right, ← List.sum_map_mul_left]
  congr 1
  apply List.map_congr_left
  intro t _
  ring

theorem formVal_hasDerivAt {h : PyDict (HV V ℝ) ℝ} (hw : ∀ t ∈ h, WF t.1.items) (isFixed : V → Bool) (x : V → ℝ) (v : V) (hv : 0 < x v)
    (h1 : 0 < 1 - termsVal x (h.filter (allFixed isFixed))) (hact : formVal isFixed x h = 1) :
    HasDerivAt (fun s => Real.log (formVal isFixed (Function.update x v (Real.exp s)) h))
      (logGrad x h v / (1 - termsVal x (h.filter (allFixed isFixed)))) (Real.log (x v)) := by
  set N := h.filter (fun t => !allFixed isFixed t) with hN
  set C := h.filter (allFixed isFixed) with hC
  have hwN : ∀ t ∈ N, WF t.1.items := fun t ht => hw t (List.mem_of_mem_filter ht)
  have hwC : ∀ t ∈ C, WF t.1.items := fun t ht => hw t (List.mem_of_mem_filter ht)
  have hNC : termsVal x N = 1 - termsVal x C := by
    unfold formVal at hact
    rw [div_eq_one_iff_eq h1.ne'] at hact
    exact hact
  have hx : Real.exp (Real.log (x v)) = x v := Real.exp_log hv
  have dN := termsVal_hasDerivAt hv hwN
  have dC := termsVal_hasDerivAt hv hwC
  rw [← hx] at dN dC
  have eN := dN.comp (Real.log (x v)) (Real.hasDerivAt_exp _)
  have eC := (dC.comp (Real.log (x v)) (Real.hasDerivAt_exp _)).const_sub 1
  have hu : Function.update x v (Real.exp (Real.log (x v))) = x := by rw [hx, Function.update_eq_self]
  have hd := eN.div eC (by simp only [Function.comp, hu]; exact h1.ne')
  have hl := hd.log (by
    simp only [Function.comp, hu, Pi.div_apply]
    rw [hNC, div_self h1.ne']; exact one_ne_zero)
  refine hl.congr_deriv ?_
  simp only [Function.comp, hu, Pi.div_apply]
  rw [logGrad_split (allFixed isFixed) x h v, ← hN, ← hC, ← val_diff_eq hv hwN, ← val_diff_eq hv hwC, hNC, div_self h1.ne', hx]
  field_simp
  ring

/-- C16 for posynomials and positive constants, at a point where the form is active, with the dual variables that belong to it, for every variable (constants and others).
Missing: constants for which shares are lost (see C15), and constraints that still have the constant part of an earlier solve (see C49). -/
theorem C16_posynomial_partial {feastol : ℝ} {h : PyDict (HV V ℝ) ℝ} (hc : TermsCanonical h) (hne : h ≠ []) (hpos : ∀ t ∈ h, 0 < t.2) {fixed : PyDict V ℝ}
    (hfix : ∀ v c, fixed.get? v = some c → 0 < c) {rounds : List (V × List (HV V ℝ))} (ho : SetOrder (varlocs h fixed) rounds)
    (hlate : MergesLate h (varlocKeys h fixed)) {m0 m : Memo ℝ} (hm0 : m0.constMmap = none) {ts : PyDict (HV V ℝ) ℝ}
    (hform : formStep feastol h fixed rounds m0 = (.ok [ts], m)) (pt : V → ℝ) (hpt : ∀ v, 0 < pt v) (hact : termsVal pt ts = 1) (la : ℝ) (v : V) :
    (∀ pt, termsVal pt ts = formVal fixed.contains (override pt fixed) h) ∧
    ∃ d, HasDerivAt (fun s => Real.log (formVal fixed.contains (Function.update (override pt fixed) v (Real.exp s)) h)) d
        (Real.log (override pt fixed v)) ∧
      sensAt (sensFromDual h m la (termDuals la pt ts)).1 v = la * d := by
  have hw' : ∀ t ∈ h, WF t.1.items := fun t ht => ((expCanonical_iff _).1 (hc.1 t ht).1).1
  cases hsub : subState h fixed rounds with
  | error e => unfold formStep at hform; rw [hsub] at hform; simp at hform
  | ok s =>
    obtain ⟨w, hs⟩ := shared_of_sub hc hne hpos hfix ho hlate hsub
    have hf := formed_of_step hs hc hsub hform
    have hval := hf.val hc hs
    refine ⟨hval, _, ?_, hf.sens hc hs hm0 la pt v⟩
    have hopos : 0 < override pt fixed v := by
      unfold override
      cases hg : fixed.get? v with
      | none => simpa using hpt v
      | some c => simpa using hfix v c hg
    refine formVal_hasDerivAt hw' _ _ v hopos ?_ (by rw [← hval pt]; exact hact)
    have hconst := hs.const hc pt
    rw [← hconst]
    rcases hf.parts with ⟨h1, _, _⟩ | ⟨k, c, h1, h2, h3, h4, h5, _⟩
    · rw [h1]; simp
    · rw [h1]
      simp only [Option.getD_some]
      have hts : ts ≠ [] := by intro h6; rw [h6] at hact; simp [termsVal] at hact
      obtain ⟨t, ht⟩ := List.exists_mem_of_ne_nil _ hts
      have ht0 := hf.pos t ht
      rw [h4] at ht
      obtain ⟨u, hu, rfl⟩ := List.mem_map.1 ht
      have hu0 := hs.pos u ((del_sublist _ _).subset hu)
      simp only at ht0
      have := (pos_iff_pos_of_mul_pos ht0).1 hu0
      exact inv_pos.1 this

/-- C16 for monomial equalities `c*x**e == 1`, whose two halves are `c*x**e <= 1` and its inverse: the first call of `sens_from_dual` reports nothing, the second one
the derivative for both. -/
theorem C16_equality {e : HV V ℝ} (he : WF e.items) {c : ℝ} (hc : 0 < c) (la0 la1 : ℝ) (x : V → ℝ) (hx : ∀ v, 0 < x v) (v : V) :
    ∃ r1 r2, meqSens e [] la0 = r1 ∧ meqSens e r1.2.2 la1 = r2 ∧ r1.1 = [] ∧ r1.2.1 = 0 ∧ r2.2 = (la0 - la1, []) ∧
      ∃ d0 d1, HasDerivAt (fun s => Real.log (c * monVal (Function.update x v (Real.exp s)) e.items)) d0 (Real.log (x v)) ∧
        HasDerivAt (fun s => Real.log (c * monVal (Function.update x v (Real.exp s)) e.items)⁻¹) d1 (Real.log (x v)) ∧
        sensAt r2.1 v = la0 * d0 + la1 * d1 := by
  have hpos : 0 < c * monVal x e.items := mul_pos hc (monVal_pos hx _)
  have h1 := logCost_hasDerivAt (pt := x) (hx v) (ts := [(e, c)]) (by simpa using he) (by simpa [termsVal] using hpos)
  have h2 : logGrad x [(e, c)] v / termsVal x [(e, c)] = expo e v := by
    unfold logGrad termsVal
    simp only [List.map_cons, List.map_nil, List.sum_cons, List.sum_nil, add_zero]
    rw [mul_comm, mul_div_assoc]
    have : c * monVal x e.items / (c * monVal x e.items) = 1 := div_self hpos.ne'
    rw [this, mul_one]
  have h3 : logCost x [(e, c)] v = fun s => Real.log (c * monVal (Function.update x v (Real.exp s)) e.items) := by
    funext s; simp [logCost, termsVal]
  rw [h2, h3] at h1
  refine ⟨_, _, rfl, rfl, rfl, rfl, rfl, expo e v, -expo e v, h1, ?_, ?_⟩
  · have := h1.neg
    refine this.congr_of_eventuallyEq ?_
    filter_upwards with s
    simp only [Real.log_inv, Pi.neg_apply]
  · simp only [meqSens, sensAt, HV.scale, get?_dictScale, expo, HV.get?]
    cases e.items.get? v <;> simp
    ring

/-! ## C49 -/

section
variable {K : Type} [Field K] [LinearOrder K] [HasPow K]

theorem formStep_fst (feastol : K) (h : PyDict (HV V K) K) (fixed : PyDict V K) (rounds : List (V × List (HV V K))) (m1 m2 : Memo K) :
    (formStep feastol h fixed rounds m1).1 = (formStep feastol h fixed rounds m2).1 := by
  unfold formStep
  cases subState h fixed rounds with
  | error e => rfl
  | ok s => simp only; cases mmap s h <;> rfl

/-- A solve that leaves nothing behind: it got as far as reporting sensitivities, or the constraint had no constant term. -/
def LeavesNothing (feastol : K) (h : PyDict (HV V K) K) (r : SolveEvent V K) : Prop :=
  (∃ ts, (formStep feastol h r.fixed r.rounds {}).1 = .ok [ts] ∧ r.duals ≠ none) ∨ ∀ s, subState h r.fixed r.rounds = .ok s → s.cp.get? HV.empty = none

theorem formStep_pmap {feastol : K} {h : PyDict (HV V K) K} {fixed : PyDict V K} {rounds : List (V × List (HV V K))} {m : Memo K} {ts : PyDict (HV V K) K}
    (hf : (formStep feastol h fixed rounds m).1 = .ok [ts]) : (formStep feastol h fixed rounds m).2.pmap ≠ none := by
  unfold formStep at hf ⊢
  cases hs : subState h fixed rounds with
  | error e => rw [hs] at hf; cases hf
  | ok s =>
    rw [hs] at hf
    simp only at hf ⊢
    cases hm : mmap s h with
    | error e => rw [hm] at hf; cases hf
    | ok pmap =>
      simp only
      unfold noteConst
      split <;> simp

theorem formStep_noconst {feastol : K} {h : PyDict (HV V K) K} {fixed : PyDict V K} {rounds : List (V × List (HV V K))} {m : Memo K}
    (hn : ∀ s, subState h fixed rounds = .ok s → s.cp.get? HV.empty = none) :
    (formStep feastol h fixed rounds m).2.constMmap = m.constMmap := by
  unfold formStep
  cases hs : subState h fixed rounds with
  | error e => rfl
  | ok s =>
    simp only
    cases hm : mmap s h with
    | error e => rfl
    | ok pmap => simp [noteConst, hn s hs]

theorem afterSolve_clean {feastol : K} {h : PyDict (HV V K) K} {r : SolveEvent V K} (hr : LeavesNothing feastol h r) {m : Memo K} (hm : m.constMmap = none) :
    (afterSolve feastol h m r).constMmap = none := by
  unfold afterSolve
  rcases hr with ⟨ts, h1, h2⟩ | h1
  · obtain ⟨d, hd⟩ := Option.ne_none_iff_exists'.1 h2
    rw [formStep_fst _ _ _ _ {} m] at h1
    have h3 := formStep_pmap h1
    rcases hf : formStep feastol h r.fixed r.rounds m with ⟨o, m'⟩
    rw [hf] at h1 h3
    simp only at h1 h3
    subst h1
    rw [hd]
    simp only [sensFromDual]
    cases hp : m'.pmap with
    | none => exact absurd hp h3
    | some _ => rfl
  · have h2 := formStep_noconst (feastol := feastol) (m := m) h1
    rcases hf : formStep feastol h r.fixed r.rounds m with ⟨o, m'⟩
    rw [hf, hm] at h2
    simp only at h2
    have h3 : ∀ d : K × List K, (sensFromDual h m' d.1 d.2).2.constMmap = none := by
      intro d
      unfold sensFromDual
      cases m'.pmap <;> simp [h2]
    split
    · rename_i heq _; cases heq; exact h3 _
    · rename_i heq _; cases heq; exact h2

theorem past_clean {feastol : K} {h : PyDict (HV V K) K} : ∀ (past : List (SolveEvent V K)) (m : Memo K), m.constMmap = none →
    (∀ r ∈ past, LeavesNothing feastol h r) → (past.foldl (afterSolve feastol h) m).constMmap = none := by
  intro past
  induction past with
  | nil => exact fun m hm _ => hm
  | cons r past ih =>
    intro m hm hall
    exact ih _ (afterSolve_clean (hall r List.mem_cons_self) hm) (fun q hq => hall q (List.mem_cons_of_mem _ hq))

/-- C49 after solves that each either reported sensitivities or saw no constant term, or if there is a constant term now.
Missing: solves that failed, or in which the constraint became a tautology, before one without a constant term (`C49_tautology_fails`, `C49_infeasible_fails`). -/
theorem C49_history_partial {feastol : K} {h : PyDict (HV V K) K} {past : List (SolveEvent V K)} {fixed : PyDict V K} {rounds : List (V × List (HV V K))}
    (hok : (∀ r ∈ past, LeavesNothing feastol h r) ∨
      ∃ s pmap c, subState h fixed rounds = .ok s ∧ mmap s h = .ok pmap ∧ s.cp.get? HV.empty = some c) {ts : PyDict (HV V K) K}
    (hform : (formStep feastol h fixed rounds {}).1 = .ok [ts]) (la : K) (nu : List K) :
    (formStep feastol h fixed rounds (past.foldl (afterSolve feastol h) {})).1 = .ok [ts] ∧
    reportAfter feastol h past fixed rounds la nu = reportAfter feastol h [] fixed rounds la nu := by
  refine ⟨by rw [formStep_fst _ _ _ _ _ {}]; exact hform, ?_⟩
  unfold reportAfter
  generalize hm : past.foldl (afterSolve feastol h) {} = m
  have hcl : (∀ r ∈ past, LeavesNothing feastol h r) → m.constMmap = none := by
    intro hall
    rw [← hm]
    exact past_clean past {} rfl hall
  unfold formStep at hform ⊢
  rw [List.foldl_nil]
  cases hs : subState h fixed rounds with
  | error e => rw [hs] at hform; cases hform
  | ok s =>
    rw [hs] at hform hok
    simp only at hform ⊢
    cases hmm : mmap s h with
    | error e => rw [hmm] at hform; cases hform
    | ok pmap =>
      simp only
      have hidx : ∀ c, s.cp.get? HV.empty = some c → ∃ j, pyIndex (s.cp.map (·.1)) HV.empty = some j := by
        intro c hc
        obtain ⟨k, hk1, hk2⟩ := exists_mem_of_get? hc
        cases hj : pyIndex (s.cp.map (·.1)) HV.empty with
        | some j => exact ⟨j, rfl⟩
        | none =>
          unfold pyIndex at hj
          rw [List.findIdx?_eq_none_iff] at hj
          have := hj k (List.mem_map_of_mem hk1)
          rw [hk2] at this; cases this
      cases hg : s.cp.get? HV.empty with
      | some c =>
        obtain ⟨j, hj⟩ := hidx c hg
        simp [noteConst, hg, hj]
      | none =>
        have h0 : m.constMmap = none := by
          rcases hok with hok | ⟨s', pmap', c', h1, _, h2⟩
          · exact hcl hok
          · injection h1 with h1; subst h1; rw [hg] at h2; cases h2
        simp [noteConst, hg, sensFromDual, liftNu, h0]

/-- C49 for monomial equalities: a pair of calls leaves nothing behind and does not depend on what was before. -/
theorem C49_equality (e : HV V K) (pairs : List (K × K)) :
    pairs.foldl (fun las p => (meqSens e (meqSens e las p.1).2.2 p.2).2.2) [] = [] := by
  induction pairs with
  | nil => rfl
  | cons p pairs ih => exact ih

end

end

/-- The hypotheses of `C16_posynomial_partial` can be met: `x*y + x**2 <= 1` with `x = 1/2` (0; `y` is 1), active at `y = 3/2`. -/
example : let h : PyDict (HV ℕ ℝ) ℝ := [(⟨[(0, 1), (1, 1)]⟩, 1), (⟨[(0, 2)]⟩, 1)]
    let fixed : PyDict ℕ ℝ := [(0, 1 / 2)]
    ∃ m ts, TermsCanonical h ∧ SetOrder (varlocs h fixed) (varlocs h fixed) ∧ MergesLate h (varlocKeys h fixed) ∧
      formStep 0 h fixed (varlocs h fixed) {} = (.ok [ts], m) ∧ termsVal (fun _ => 3 / 2) ts = 1 := by
  intro h fixed
  refine ⟨⟨some [[(0, 1)]], some [(1, 1)], some (3 / 4)⟩, [(⟨[(1, 1)]⟩, 2 / 3)], ?_, ?_, ?_, ?_, ?_⟩
  · simp only [h, TermsCanonical, ExpCanonical, ← List.isPerm_iff]
    norm_num [List.isPerm]
    rintro a b (⟨_, rfl⟩ | ⟨_, rfl⟩) <;> norm_num
  · exact List.forall₂_same.2 (fun _ _ => ⟨rfl, List.Perm.refl _⟩)
  · intro t1 _ t2 _ _ done v later hvs _ _ w hw
    have h1 : varlocKeys h fixed = [0] := by simp [h, fixed, varlocKeys, PyDict.keys, PyDict.contains, PyDict.get?]
    rw [h1] at hvs
    have h2 := congrArg List.length hvs
    have hl : 0 < later.length := List.length_pos_of_mem hw
    simp only [List.length_append, List.length_cons, List.length_nil] at h2
    omega
  · norm_num [h, fixed, formStep, noteConst, checkForm, simplifyPosyIneq, mmap, mmapStep, dictScale, pyIndex, subState, subRound, subinplace, subInit, csUpdate, subAdd,
      varlocs, varlocKeys, PyDict.get?, PyDict.set, PyDict.del, PyDict.contains, PyDict.keys, HV.get?, HV.del, HV.empty, pwDom, pw_real, HV.beq_def, bind, pure,
      Except.bind, Except.pure, List.foldlM, List.isPerm, List.findIdx?_cons, List.modify_succ_cons]
  · norm_num [termsVal, monVal]

/-! ## Findings -/

/-- The sensitivities that `x*y <= 1` reports with `x = 1/2` and the duals `la = 1`, `nu = [1]`, after another solve. -/
def reportXY (feastol : ℚ) (past : List (SolveEvent ℕ ℚ)) : List (ℕ × ℚ) :=
  let h : PyDict (HV ℕ ℚ) ℚ := [(⟨[(0, 1), (1, 1)]⟩, 1)]
  reportAfter feastol h past [(0, 1 / 2)] (varlocs h [(0, 1 / 2)]) 1 [1]

/-- C49 is violated: after a solve with `x = y = 1/2`, in which the constraint is a tautology, `x*y <= 1` reports 4/3 instead of 1. -/
theorem C49_tautology_fails :
    let e : HV ℕ ℚ := ⟨[(0, 1), (1, 1)]⟩
    let past : List (SolveEvent ℕ ℚ) := [⟨[(0, 1 / 2), (1, 1 / 2)], varlocs [(e, 1)] [(0, 1 / 2), (1, 1 / 2)], none⟩]
    reportXY 0 [] = [(0, 1), (1, 1)] ∧ reportXY 0 past = [(0, 4 / 3), (1, 4 / 3)] := by
  decide +kernel

/-- C49 is violated: after a solve that failed because `x*y <= 1` cannot be met with `x = y = 2`, sensitivities have the wrong sign. -/
theorem C49_infeasible_fails :
    let e : HV ℕ ℚ := ⟨[(0, 1), (1, 1)]⟩
    let past : List (SolveEvent ℕ ℚ) := [⟨[(0, 2), (1, 2)], varlocs [(e, 1)] [(0, 2), (1, 2)], none⟩]
    reportXY 0 past = [(0, -1 / 3), (1, -1 / 3)] := by
  decide +kernel

/-- C16 is violated where shares are lost: `x*y*z*u + x**2*y*z*u <= 1` with `x = y = z = 1` is `2*u <= 1`, and its derivative for `x` is 3/2; reported is 1/2 or 1. -/
theorem C16_moved_fails :
    let o1 : HV ℕ ℚ := ⟨[(0, 1), (1, 1), (2, 1), (3, 1)]⟩
    let o2 : HV ℕ ℚ := ⟨[(0, 2), (1, 1), (2, 1), (3, 1)]⟩
    let h : PyDict (HV ℕ ℚ) ℚ := [(o1, 1), (o2, 1)]
    let fixed : PyDict ℕ ℚ := [(0, 1), (1, 1), (2, 1)]
    (reportAfter 0 h [] fixed (varlocs h fixed) 1 [1]).get? 0 = some (1 / 2) ∧
    (reportAfter 0 h [] fixed [(0, [o2, o1]), (1, [o2, o1]), (2, [o2, o1])] 1 [1]).get? 0 = some 1 := by
  decide +kernel

end Verif
