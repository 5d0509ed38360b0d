import Verif.Model.Sub
import Verif.Lemmas.Canonical

/-! Substitution keeps the value: loop invariants of `NomialMap.sub`. -/

set_option linter.unusedSectionVars false

namespace Verif
open PyDict

section Dict
variable {α β : Type} [BEq α] [EquivBEq α]

theorem mem_set_iff {d : PyDict α β} (h : WF d) {o : α} (ho : o ∈ d.map (·.1)) (v : β) (p : α × β) :
    p ∈ d.set o v ↔ p = (o, v) ∨ (p ∈ d ∧ (p.1 == o) = false) := by
  induction d with
  | nil => simp at ho
  | cons q d ih =>
    obtain ⟨k', v'⟩ := q
    obtain ⟨h1, h2⟩ := wf_cons.1 h
    rw [set_cons]
    by_cases hk : k' == o
    · have hko : k' = o := by
        rcases List.mem_cons.1 ho with ho | ho
        · exact ho.symm
        · obtain ⟨q, hq, hqo⟩ := List.mem_map.1 ho
          have := h1 q hq
          simp only at this hqo
          rw [hqo, hk] at this; cases this
      rw [if_pos hk]
      constructor
      · intro hp
        rcases List.mem_cons.1 hp with hp | hp
        · left; rw [hp, hko]
        · right
          refine ⟨List.mem_cons_of_mem _ hp, ?_⟩
          have := h1 p hp
          rw [BEq.comm, ← hko]; exact this
      · rintro (hp | ⟨hp, hpo⟩)
        · rw [hp, hko]; exact List.mem_cons_self
        · rcases List.mem_cons.1 hp with hp | hp
          · rw [hp] at hpo; simp only at hpo; rw [hk] at hpo; cases hpo
          · exact List.mem_cons_of_mem _ hp
    · rw [if_neg hk]
      have ho' : o ∈ d.map (·.1) := by
        rcases List.mem_cons.1 ho with ho | ho
        · simp only at ho; rw [ho] at hk; simp at hk
        · exact ho
      rw [List.mem_cons, ih h2 ho', List.mem_cons]
      constructor
      · rintro (hp | hp | ⟨hp, hpo⟩)
        · right; refine ⟨Or.inl hp, ?_⟩; rw [hp]; simpa using hk
        · left; exact hp
        · right; exact ⟨Or.inr hp, hpo⟩
      · rintro (hp | ⟨hp | hp, hpo⟩)
        · right; left; exact hp
        · left; exact hp
        · right; right; exact ⟨hp, hpo⟩

theorem map_fst_set {d : PyDict α β} {o : α} (ho : d.get? o ≠ none) (v : β) :
    (d.set o v).map (·.1) = d.map (·.1) := by
  induction d with
  | nil => simp at ho
  | cons q d ih =>
    obtain ⟨k', v'⟩ := q
    rw [set_cons]
    rw [get?_cons] at ho
    by_cases hk : k' == o
    · rw [if_pos hk]; simp
    · rw [if_neg hk] at ho ⊢
      simp only [List.map_cons]; rw [ih ho]

theorem not_mem_del {d : PyDict α β} (h : WF d) {k : α} {p : α × β} (hp : p ∈ d.del k) : (p.1 == k) = false := by
  have h1 := get?_of_mem (wf_del h k) hp
  rw [get?_del h] at h1
  by_cases hk : k == p.1
  · simp [hk] at h1
  · rw [BEq.comm]; simpa using hk

theorem wf_perm {d e : PyDict α β} (h : WF d) (hp : d.Perm e) : WF e := by
  refine (hp.pairwise_iff ?_).1 h
  intro a b hab
  rw [BEq.comm]; exact hab

theorem get?_perm {d e : PyDict α β} (h : WF d) (hp : d.Perm e) (k : α) : d.get? k = e.get? k := by
  have he := wf_perm h hp
  cases hk : d.get? k with
  | none =>
    cases hk2 : e.get? k with
    | none => rfl
    | some v =>
      obtain ⟨k', h1, h2⟩ := exists_mem_of_get? hk2
      have := get?_of_mem h (hp.symm.subset h1)
      rw [get?_congr d h2, hk] at this; cases this
  | some v =>
    obtain ⟨k', h1, h2⟩ := exists_mem_of_get? hk
    have := get?_of_mem he (hp.subset h1)
    rw [get?_congr e h2] at this; exact this.symm

theorem foldl_set_eq {l d : PyDict α β} (h : WF (d ++ l)) :
    l.foldl (fun cp t => PyDict.set cp t.1 t.2) d = d ++ l := by
  induction l generalizing d with
  | nil => simp
  | cons t l ih =>
    rw [List.foldl_cons]
    have hn : PyDict.get? d t.1 = none := by
      rw [get?_eq_none_iff]
      intro p hp
      exact (List.pairwise_append.1 h).2.2 p hp t List.mem_cons_self
    rw [set_of_not_contains hn, ih]
    · simp
    · simpa using h

end Dict

section Sub
variable {V : Type} [DecidableEq V]

theorem hv_get?_congr {a b : HV V ℝ} (ha : WF a.items) (h : (a == b) = true) (v : V) : a.get? v = b.get? v :=
  get?_perm ha (HV.beq_iff.1 h) v

theorem hv_wf_congr {a b : HV V ℝ} (ha : WF a.items) (h : (a == b) = true) : WF b.items :=
  wf_perm ha (HV.beq_iff.1 h)

theorem hv_get?_del {a : HV V ℝ} (ha : WF a.items) (v w : V) :
    (a.del v).get? w = if v = w then none else a.get? w := by
  unfold HV.del HV.get?
  rw [get?_del ha]
  by_cases h : v = w <;> simp [h]

theorem monVal_del (pt : V → ℝ) {e : HV V ℝ} {vk : V} {x : ℝ} (h : e.get? vk = some x) :
    monVal pt e.items = pt vk ^ x * monVal pt (e.del vk).items := by
  unfold HV.get? at h
  unfold HV.del
  generalize e.items = l at h
  simp only
  induction l with
  | nil => simp at h
  | cons p l ih =>
    obtain ⟨k, y⟩ := p
    rw [get?_cons] at h
    rw [del_cons]
    by_cases hk : k == vk
    · rw [if_pos hk] at h ⊢
      cases h
      simp [monVal, eq_of_beq hk]
    · rw [if_neg hk] at h ⊢
      have := ih h
      simp only [monVal, List.map_cons, List.prod_cons] at this ⊢
      rw [this]; ring

/-- the refill of an empty map -/
noncomputable def subFill (cp : PyDict (HV V ℝ) ℝ) : PyDict (HV V ℝ) ℝ := if cp.isEmpty then PyDict.set cp HV.empty 0 else cp

theorem subinplace_ok {s s' : SubState V ℝ} {o : HV V ℝ} {vk : V} {cval : ℝ}
    (h : subinplace s o vk cval = .ok s') :
    ∃ e x, s.expmap.get? o = some e ∧ e.get? vk = some x ∧ pwDom cval x = true ∧
      s'.csmap = csUpdate s.csmap o (pw cval x) ∧
      ((∃ c, s.cp.get? e = some c ∧ s'.cp = subFill (subAdd (s.cp.del e) (e.del vk) (pw cval x * c)) ∧
          s'.expmap = s.expmap.set o (e.del vk) ∧
          s'.squished = if (s.cp.del e).contains (e.del vk) then s.squished ++ [e.del vk] else s.squished) ∨
       (s.cp.get? e = none ∧ s'.cp = s.cp ∧ s'.squished = s.squished ∧
          ((s.squished.contains e = true ∧ s'.expmap = s.expmap.set o (e.del vk)) ∨
           (s.squished.contains e = false ∧ s'.expmap = s.expmap)))) := by
  unfold subinplace at h
  cases he : s.expmap.get? o with
  | none => rw [he] at h; cases h
  | some e =>
    rw [he] at h
    simp only at h
    cases hx : e.get? vk with
    | none => rw [hx] at h; cases h
    | some x =>
      rw [hx] at h
      simp only at h
      by_cases hd : pwDom cval x = true
      · rw [if_pos hd] at h
        refine ⟨e, x, rfl, hx, hd, ?_⟩
        cases hc : s.cp.get? e with
        | some c =>
          rw [hc] at h
          simp only at h
          cases h
          exact ⟨rfl, Or.inl ⟨c, rfl, rfl, rfl, rfl⟩⟩
        | none =>
          rw [hc] at h
          simp only at h
          by_cases hs : s.squished.contains e = true
          · rw [if_pos hs] at h; cases h
            exact ⟨rfl, Or.inr ⟨rfl, rfl, rfl, Or.inl ⟨hs, rfl⟩⟩⟩
          · rw [if_neg hs] at h; cases h
            exact ⟨rfl, Or.inr ⟨rfl, rfl, rfl, Or.inr ⟨by simpa using hs, rfl⟩⟩⟩
      · rw [if_neg hd] at h; cases h

theorem subAdd_val (pt : V → ℝ) (cp : PyDict (HV V ℝ) ℝ) (e : HV V ℝ) (v : ℝ) :
    termsVal pt (subAdd cp e v) = termsVal pt cp + v * monVal pt e.items := by
  have hf := monVal_respects pt
  unfold subAdd
  cases h : cp.get? e with
  | some cur =>
    simp only
    split_ifs with h1
    · rw [termsVal_eq_wsum, wsum_set hf, h, ← termsVal_eq_wsum]; simp; ring
    · rw [termsVal_eq_wsum, wsum_del hf, h, ← termsVal_eq_wsum, not_not.1 h1]; simp; ring
  | none =>
    simp only
    split_ifs with h1
    · rw [termsVal_eq_wsum, wsum_set hf, h, ← termsVal_eq_wsum]; simp
    · rw [not_not.1 h1]; simp

theorem subAdd_wf {cp : PyDict (HV V ℝ) ℝ} (h : WF cp) (e : HV V ℝ) (v : ℝ) : WF (subAdd cp e v) := by
  unfold subAdd
  split
  · split_ifs
    · exact wf_set h _ _
    · exact wf_del h _
  · split_ifs
    · exact wf_set h _ _
    · exact h

theorem subAdd_nz {cp : PyDict (HV V ℝ) ℝ} (h : NZ cp) (e : HV V ℝ) (v : ℝ) : NZ (subAdd cp e v) := by
  unfold subAdd
  split
  · split_ifs with h1
    · exact h.set (fun h2 => h1 (eq_neg_of_add_eq_zero_right h2))
    · exact h.del _
  · split_ifs with h1
    · exact h.set h1
    · exact h

theorem subAdd_keys {cp : PyDict (HV V ℝ) ℝ} {e : HV V ℝ} {v : ℝ} {t : HV V ℝ × ℝ} (h : t ∈ subAdd cp e v) :
    t.1 = e ∨ ∃ w, (t.1, w) ∈ cp := by
  unfold subAdd at h
  split at h
  · split_ifs at h
    · exact keys_of_mem_set' h
    · exact Or.inr ⟨t.2, (del_sublist _ _).subset h⟩
  · split_ifs at h
    · exact keys_of_mem_set' h
    · exact Or.inr ⟨t.2, h⟩

theorem subFill_val (pt : V → ℝ) (cp : PyDict (HV V ℝ) ℝ) : termsVal pt (subFill cp) = termsVal pt cp := by
  unfold subFill
  split_ifs with h
  · rw [List.isEmpty_iff] at h; subst h; simp
  · rfl

theorem subFill_wf {cp : PyDict (HV V ℝ) ℝ} (h : WF cp) : WF (subFill cp) := by
  unfold subFill
  split_ifs
  · exact wf_set h _ _
  · exact h

theorem subFill_ne (cp : PyDict (HV V ℝ) ℝ) : subFill cp ≠ [] := by
  unfold subFill
  split_ifs with h
  · rw [List.isEmpty_iff] at h; subst h; simp
  · simpa using h

theorem subFill_nz {cp : PyDict (HV V ℝ) ℝ} (h : NZ cp) : NZ (subFill cp) ∨ subFill cp = [(HV.empty, 0)] := by
  unfold subFill
  split_ifs with h1
  · rw [List.isEmpty_iff] at h1; subst h1; right; rfl
  · left; exact h

theorem subFill_keys {cp : PyDict (HV V ℝ) ℝ} {t : HV V ℝ × ℝ} (h : t ∈ subFill cp) :
    t.1.items = [] ∨ t ∈ cp := by
  unfold subFill at h
  split_ifs at h with h1
  · rw [List.isEmpty_iff] at h1; subst h1; simp at h; left; rw [h]; rfl
  · right; exact h

/-- Facts about the state that hold between and during rounds. -/
structure SubCore (h : PyDict (HV V ℝ) ℝ) (s : SubState V ℝ) : Prop where
  wf : WF s.cp
  kwf : ∀ t ∈ s.cp, WF t.1.items
  ne : s.cp ≠ []
  nz : NZ h → NZ s.cp ∨ s.cp = [(HV.empty, 0)]
  emk : s.expmap.map (·.1) = h.map (·.1)
  emwf : ∀ p ∈ s.expmap, WF p.2.items
  emsub : ∀ p ∈ s.expmap, ∀ v x, p.2.get? v = some x → p.1.get? v = some x
  wit : ∀ t ∈ s.cp, t.1.items = [] ∨ ∃ p ∈ s.expmap, (p.2 == t.1) = true

/-- Invariant inside the round for `vk`; `L` are the exponents still to be treated, `done` the variables of earlier rounds. -/
structure SubRInv (h : PyDict (HV V ℝ) ℝ) (done : List V) (vk : V) (L : List (HV V ℝ)) (s : SubState V ℝ) : Prop
    extends SubCore h s where
  pend : ∀ p ∈ s.expmap, ∀ v, v ∉ done → (v ≠ vk ∨ p.1 ∈ L) → p.2.get? v = p.1.get? v
  rnd : ∀ t ∈ s.cp, t.1.get? vk ≠ none → ∃ p ∈ s.expmap, p.1 ∈ L ∧ (p.2 == t.1) = true
  dn : ∀ t ∈ s.cp, ∀ v ∈ done, t.1.get? v = none

/-- Invariant between rounds. -/
structure SubInv (h : PyDict (HV V ℝ) ℝ) (done : List V) (s : SubState V ℝ) : Prop extends SubCore h s where
  pend : ∀ p ∈ s.expmap, ∀ v, v ∉ done → p.2.get? v = p.1.get? v
  dn : ∀ t ∈ s.cp, ∀ v ∈ done, t.1.get? v = none

theorem expmap_wf {h : PyDict (HV V ℝ) ℝ} (hwf : WF h) {m : PyDict (HV V ℝ) (HV V ℝ)}
    (hm : m.map (·.1) = h.map (·.1)) : WF m := by
  have h1 : (h.map (·.1)).Pairwise (fun a b => (a == b) = false) := List.pairwise_map.2 hwf
  rw [← hm, List.pairwise_map] at h1
  exact h1

theorem subRound_step {h : PyDict (HV V ℝ) ℝ} (hwf : WF h) {done : List V} {vk : V}
    {o : HV V ℝ} {L : List (HV V ℝ)} (ho : o ∈ h.map (·.1)) (hoL : o ∉ L)
    {s s' : SubState V ℝ} {cval : ℝ} (inv : SubRInv h done vk (o :: L) s)
    (hs : subinplace s o vk cval = .ok s') :
    SubRInv h done vk L s' ∧ ∀ pt : V → ℝ, pt vk = cval → termsVal pt s'.cp = termsVal pt s.cp := by
  obtain ⟨e, x, he, hx, hd, hcs, hcase⟩ := subinplace_ok hs
  have hmwf : WF s.expmap := expmap_wf hwf inv.emk
  have hom : o ∈ s.expmap.map (·.1) := by rw [inv.emk]; exact ho
  -- distinct keys differ
  have hdiff : ∀ a ∈ h.map (·.1), a ≠ o → (a == o) = false := by
    have hp : (h.map (·.1)).Pairwise (fun a b => (a == b) = false) := List.pairwise_map.2 hwf
    intro a ha hne
    by_contra hc
    simp only [Bool.not_eq_false] at hc
    have : ∀ l : List (HV V ℝ), l.Pairwise (fun a b => (a == b) = false) → a ∈ l → o ∈ l → False := by
      intro l
      induction l with
      | nil => intro _ h; simp at h
      | cons b l ih =>
        intro hp ha ho
        obtain ⟨h1, h2⟩ := List.pairwise_cons.1 hp
        rcases List.mem_cons.1 ha with hab | ha2
        · rcases List.mem_cons.1 ho with hob | ho2
          · exact hne (hab.trans hob.symm)
          · rw [hab, h1 _ ho2] at hc; cases hc
        · rcases List.mem_cons.1 ho with hob | ho2
          · rw [BEq.comm, hob, h1 _ ha2] at hc; cases hc
          · exact ih h2 ha2 ho2
    exact this _ hp ha ho
  have hoe : (o, e) ∈ s.expmap := by
    obtain ⟨p, hp, hpo⟩ := List.mem_map.1 hom
    have h1 := get?_of_mem hmwf hp
    rw [hpo, he] at h1
    cases h1
    rw [← hpo]; exact hp
  have hewf := inv.emwf _ hoe
  have hgo : s.expmap.get? o ≠ none := by rw [he]; simp
  have hkeyIn : ∀ p ∈ s.expmap, p.1 ∈ h.map (·.1) := fun p hp => by
    rw [← inv.emk]; exact List.mem_map_of_mem hp
  have hmem' : ∀ p, p ∈ s.expmap.set o (e.del vk) ↔ p = (o, e.del vk) ∨ (p ∈ s.expmap ∧ (p.1 == o) = false) :=
    mem_set_iff hmwf hom (e.del vk)
  have hsame : ∀ p ∈ s.expmap, (p.1 == o) = true → p = (o, e) := by
    intro p hp hpo
    have hpe : p.1 = o := by
      by_contra hne
      rw [hdiff p.1 (hkeyIn p hp) hne] at hpo; cases hpo
    have h1 := get?_of_mem hmwf hp
    rw [hpe, he] at h1
    injection h1 with h1
    exact Prod.ext hpe h1.symm
  -- the expmap facts after stripping
  have emk' : (s.expmap.set o (e.del vk)).map (·.1) = h.map (·.1) := by rw [map_fst_set hgo]; exact inv.emk
  have emwf' : ∀ p ∈ s.expmap.set o (e.del vk), WF p.2.items := by
    intro p hp
    rcases (hmem' p).1 hp with rfl | ⟨hp, _⟩
    · exact wf_del hewf _
    · exact inv.emwf p hp
  have emsub' : ∀ p ∈ s.expmap.set o (e.del vk), ∀ v y, p.2.get? v = some y → p.1.get? v = some y := by
    intro p hp v y hy
    rcases (hmem' p).1 hp with rfl | ⟨hp, _⟩
    · simp only at hy ⊢
      rw [hv_get?_del hewf] at hy
      split_ifs at hy
      exact inv.emsub _ hoe v y hy
    · exact inv.emsub p hp v y hy
  have pend' : ∀ p ∈ s.expmap.set o (e.del vk), ∀ v, v ∉ done → (v ≠ vk ∨ p.1 ∈ L) → p.2.get? v = p.1.get? v := by
    intro p hp v hv hor
    rcases (hmem' p).1 hp with rfl | ⟨hp, hpo⟩
    · simp only at hor ⊢
      rcases hor with hor | hor
      · rw [hv_get?_del hewf, if_neg (fun h => hor h.symm)]
        exact inv.pend _ hoe v hv (Or.inl hor)
      · exact absurd hor hoL
    · refine inv.pend p hp v hv ?_
      rcases hor with hor | hor
      · exact Or.inl hor
      · exact Or.inr (List.mem_cons_of_mem _ hor)
  rcases hcase with ⟨c, hc, hcp, hem, _⟩ | ⟨hc, hcp, _, hcase⟩
  · -- the term is present
    obtain ⟨k, hk, hke⟩ := exists_mem_of_get? hc
    have hnz : NZ h → NZ s.cp := by
      intro h0
      rcases inv.nz h0 with h1 | h1
      · exact h1
      · exfalso
        rw [h1] at hk
        simp at hk
        rw [hk.1] at hke
        have : e.get? vk = none := by
          rw [← hv_get?_congr (a := HV.empty) (by simp [HV.empty]) hke]; rfl
        rw [this] at hx; cases hx
    have hkget : ∀ v, k.get? v = e.get? v := hv_get?_congr (inv.kwf _ hk) hke
    have hcp1 : ∀ t ∈ s.cp.del e, t ∈ s.cp ∧ (t.1 == e) = false :=
      fun t ht => ⟨(del_sublist _ _).subset ht, not_mem_del inv.wf ht⟩
    have hkeys : ∀ t ∈ s'.cp, t.1.items = [] ∨ t.1 = e.del vk ∨ ∃ w, (t.1, w) ∈ s.cp ∧ (t.1 == e) = false := by
      intro t ht
      rw [hcp] at ht
      rcases subFill_keys ht with h1 | h1
      · exact Or.inl h1
      · rcases subAdd_keys h1 with h2 | ⟨w, h2⟩
        · exact Or.inr (Or.inl h2)
        · exact Or.inr (Or.inr ⟨w, hcp1 _ h2⟩)
    have hwitkeep : ∀ (q : HV V ℝ), (q == e) = false → ∀ p ∈ s.expmap, (p.2 == q) = true →
        p ∈ s'.expmap := by
      intro q hq p hp hpq
      rw [hem]
      refine (hmem' p).2 (Or.inr ⟨hp, ?_⟩)
      by_contra hne
      simp only [Bool.not_eq_false] at hne
      rw [hsame p hp hne] at hpq
      simp only at hpq
      rw [BEq.comm, hpq] at hq; cases hq
    refine ⟨⟨⟨?_, ?_, ?_, ?_, ?_, ?_, ?_, ?_⟩, ?_, ?_, ?_⟩, ?_⟩
    · rw [hcp]; exact subFill_wf (subAdd_wf (wf_del inv.wf _) _ _)
    · intro t ht
      rcases hkeys t ht with h1 | h1 | ⟨w, h1, _⟩
      · rw [h1]; simp
      · rw [h1]; exact wf_del hewf _
      · exact inv.kwf (t.1, w) h1
    · rw [hcp]; exact subFill_ne _
    · rw [hcp]; exact fun h0 => subFill_nz (subAdd_nz ((hnz h0).del _) _ _)
    · rw [hem]; exact emk'
    · rw [hem]; exact emwf'
    · rw [hem]; exact emsub'
    · intro t ht
      rcases hkeys t ht with h1 | h1 | ⟨w, h1, h2⟩
      · exact Or.inl h1
      · right; refine ⟨(o, e.del vk), ?_, ?_⟩
        · rw [hem]; exact (hmem' _).2 (Or.inl rfl)
        · rw [h1]; exact BEq.rfl
      · rcases inv.wit _ h1 with h3 | ⟨p, hp, hpt⟩
        · exact Or.inl h3
        · exact Or.inr ⟨p, hwitkeep _ h2 p hp hpt, hpt⟩
    · rw [hem]; exact pend'
    · intro t ht htv
      rcases hkeys t ht with h1 | h1 | ⟨w, h1, h2⟩
      · exfalso; apply htv; unfold HV.get?; rw [h1]; rfl
      · exfalso; apply htv; rw [h1, hv_get?_del hewf]; simp
      · obtain ⟨p, hp, hpL, hpt⟩ := inv.rnd _ h1 htv
        refine ⟨p, hwitkeep _ h2 p hp hpt, ?_, hpt⟩
        rcases List.mem_cons.1 hpL with h3 | h3
        · exfalso
          have := hsame p hp (by rw [h3]; exact BEq.rfl)
          rw [this] at hpt
          simp only at hpt
          rw [BEq.comm, hpt] at h2; cases h2
        · exact h3
    · intro t ht v hv
      rcases hkeys t ht with h1 | h1 | ⟨w, h1, _⟩
      · unfold HV.get?; rw [h1]; rfl
      · rw [h1, hv_get?_del hewf]
        split_ifs
        · rfl
        · rw [← hkget]; exact inv.dn _ hk v hv
      · exact inv.dn _ h1 v hv
    · intro pt hpt
      rw [hcp, subFill_val, subAdd_val]
      have h1 : termsVal pt (s.cp.del e) = termsVal pt s.cp - c * monVal pt e.items := by
        rw [termsVal_eq_wsum, wsum_del (monVal_respects pt), hc, ← termsVal_eq_wsum]; simp
      rw [h1, monVal_del pt hx, hpt, pw_real]; ring
  · -- the term is gone
    have hnowit : ∀ t ∈ s.cp, (e == t.1) = false := by
      intro t ht
      by_contra hne
      simp only [Bool.not_eq_false] at hne
      have := get?_of_mem inv.wf ht
      rw [← get?_congr s.cp hne, hc] at this; cases this
    have rnd' : ∀ (m : PyDict (HV V ℝ) (HV V ℝ)), (∀ p ∈ s.expmap, (p.1 == o) = false → p ∈ m) →
        ∀ t ∈ s'.cp, t.1.get? vk ≠ none → ∃ p ∈ m, p.1 ∈ L ∧ (p.2 == t.1) = true := by
      intro m hm t ht htv
      rw [hcp] at ht
      obtain ⟨p, hp, hpL, hpt⟩ := inv.rnd t ht htv
      have hne : (p.1 == o) = false := by
        by_contra hne
        simp only [Bool.not_eq_false] at hne
        rw [hsame p hp hne] at hpt
        rw [hnowit t ht] at hpt; cases hpt
      refine ⟨p, hm p hp hne, ?_, hpt⟩
      rcases List.mem_cons.1 hpL with h3 | h3
      · rw [h3] at hne; simp at hne
      · exact h3
    have wit' : ∀ (m : PyDict (HV V ℝ) (HV V ℝ)), (∀ p ∈ s.expmap, (p.1 == o) = false → p ∈ m) →
        ∀ t ∈ s'.cp, t.1.items = [] ∨ ∃ p ∈ m, (p.2 == t.1) = true := by
      intro m hm t ht
      rw [hcp] at ht
      rcases inv.wit t ht with h1 | ⟨p, hp, hpt⟩
      · exact Or.inl h1
      · right
        refine ⟨p, hm p hp ?_, hpt⟩
        by_contra hne
        simp only [Bool.not_eq_false] at hne
        rw [hsame p hp hne] at hpt
        rw [hnowit t ht] at hpt; cases hpt
    rcases hcase with ⟨_, hem⟩ | ⟨_, hem⟩
    · refine ⟨⟨⟨?_, ?_, ?_, ?_, ?_, ?_, ?_, ?_⟩, ?_, ?_, ?_⟩, ?_⟩
      · rw [hcp]; exact inv.wf
      · rw [hcp]; exact inv.kwf
      · rw [hcp]; exact inv.ne
      · rw [hcp]; exact inv.nz
      · rw [hem]; exact emk'
      · rw [hem]; exact emwf'
      · rw [hem]; exact emsub'
      · rw [hem]; exact wit' _ (fun p hp hpo => (hmem' p).2 (Or.inr ⟨hp, hpo⟩))
      · rw [hem]; exact pend'
      · rw [hem]; exact rnd' _ (fun p hp hpo => (hmem' p).2 (Or.inr ⟨hp, hpo⟩))
      · rw [hcp]; exact inv.dn
      · intro pt _; rw [hcp]
    · refine ⟨⟨⟨?_, ?_, ?_, ?_, ?_, ?_, ?_, ?_⟩, ?_, ?_, ?_⟩, ?_⟩
      · rw [hcp]; exact inv.wf
      · rw [hcp]; exact inv.kwf
      · rw [hcp]; exact inv.ne
      · rw [hcp]; exact inv.nz
      · rw [hem]; exact inv.emk
      · rw [hem]; exact inv.emwf
      · rw [hem]; exact inv.emsub
      · rw [hem]; exact wit' _ (fun p hp _ => hp)
      · rw [hem]
        intro p hp v hv hor
        refine inv.pend p hp v hv ?_
        rcases hor with hor | hor
        · exact Or.inl hor
        · exact Or.inr (List.mem_cons_of_mem _ hor)
      · rw [hem]; exact rnd' _ (fun p hp _ => hp)
      · rw [hcp]; exact inv.dn
      · intro pt _; rw [hcp]

theorem subRound_loop {h : PyDict (HV V ℝ) ℝ} (hwf : WF h) {done : List V} {vk : V}
    {L : List (HV V ℝ)} (hL : ∀ o ∈ L, o ∈ h.map (·.1)) (hnd : L.Nodup)
    {s s' : SubState V ℝ} {cval : ℝ} (inv : SubRInv h done vk L s)
    (hs : L.foldlM (fun s o => subinplace s o vk cval) s = .ok s') :
    SubRInv h done vk [] s' ∧ ∀ pt : V → ℝ, pt vk = cval → termsVal pt s'.cp = termsVal pt s.cp := by
  induction L generalizing s with
  | nil => cases hs; exact ⟨inv, fun _ _ => rfl⟩
  | cons o L ih =>
    rw [List.foldlM_cons] at hs
    obtain ⟨s1, h1, h2⟩ := except_bind_ok hs
    obtain ⟨hnd1, hnd2⟩ := List.nodup_cons.1 hnd
    have hL' : ∀ o' ∈ L, o' ∈ h.map (·.1) := fun o' ho' => hL o' (List.mem_cons_of_mem _ ho')
    obtain ⟨i1, v1⟩ := subRound_step hwf (hL o List.mem_cons_self) hnd1 inv h1
    obtain ⟨i2, v2⟩ := ih hL' hnd2 i1 h2
    exact ⟨i2, fun pt hpt => by rw [v2 pt hpt, v1 pt hpt]⟩

/-- the exponents that contain `v` -/
def locs (h : PyDict (HV V ℝ) ℝ) (v : V) : List (HV V ℝ) := (h.filter (fun t => t.1.items.contains v)).map (·.1)

theorem mem_locs {h : PyDict (HV V ℝ) ℝ} {v : V} {o : HV V ℝ} :
    o ∈ locs h v ↔ o ∈ h.map (·.1) ∧ o.get? v ≠ none := by
  unfold locs
  simp only [List.mem_map, List.mem_filter]
  constructor
  · rintro ⟨t, ⟨ht, hc⟩, rfl⟩
    refine ⟨⟨t, ht, rfl⟩, ?_⟩
    obtain ⟨x, hx⟩ := contains_iff.1 hc
    unfold HV.get?; rw [hx]; simp
  · rintro ⟨⟨t, ht, rfl⟩, hne⟩
    refine ⟨t, ⟨ht, ?_⟩, rfl⟩
    obtain ⟨x, hx⟩ := Option.ne_none_iff_exists'.1 hne
    exact contains_iff.2 ⟨x, hx⟩

theorem keys_nodup {h : PyDict (HV V ℝ) ℝ} (hwf : WF h) : (h.map (·.1)).Nodup := by
  have hp : (h.map (·.1)).Pairwise (fun a b => (a == b) = false) := List.pairwise_map.2 hwf
  refine hp.imp ?_
  intro a b hab hab2
  rw [hab2] at hab; simp at hab

theorem locs_nodup {h : PyDict (HV V ℝ) ℝ} (hwf : WF h) (v : V) : (locs h v).Nodup :=
  (keys_nodup hwf).sublist (List.Sublist.map _ List.filter_sublist)

theorem subRound_ok {h : PyDict (HV V ℝ) ℝ} (hwf : WF h) {done : List V} {fixed : PyDict V ℝ}
    {r : V × List (HV V ℝ)} (hperm : (locs h r.1).Perm r.2)
    {s s' : SubState V ℝ} (inv : SubInv h done s) (hs : subRound fixed s r = .ok s') :
    SubInv h (r.1 :: done) s' ∧ ∃ cval, fixed.get? r.1 = some cval ∧
      ∀ pt : V → ℝ, pt r.1 = cval → termsVal pt s'.cp = termsVal pt s.cp := by
  unfold subRound at hs
  cases hf : fixed.get? r.1 with
  | none => rw [hf] at hs; cases hs
  | some cval =>
    rw [hf] at hs
    simp only at hs
    have hin : ∀ o, o ∈ r.2 ↔ o ∈ h.map (·.1) ∧ o.get? r.1 ≠ none := by
      intro o; rw [← hperm.mem_iff]; exact mem_locs
    have inv0 : SubRInv h done r.1 r.2 s := by
      refine ⟨inv.toSubCore, ?_, ?_, inv.dn⟩
      · intro p hp v hv _; exact inv.pend p hp v hv
      · intro t ht htv
        rcases inv.wit t ht with h1 | ⟨p, hp, hpt⟩
        · exfalso; apply htv; unfold HV.get?; rw [h1]; rfl
        · refine ⟨p, hp, (hin _).2 ⟨?_, ?_⟩, hpt⟩
          · rw [← inv.emk]; exact List.mem_map_of_mem hp
          · obtain ⟨x, hx⟩ := Option.ne_none_iff_exists'.1 htv
            rw [← hv_get?_congr (inv.emwf p hp) hpt] at hx
            rw [inv.emsub p hp _ _ hx]; simp
    obtain ⟨i1, v1⟩ := subRound_loop hwf (fun o ho => ((hin o).1 ho).1)
      (hperm.nodup (locs_nodup hwf r.1)) inv0 hs
    refine ⟨⟨i1.toSubCore, ?_, ?_⟩, cval, rfl, v1⟩
    · intro p hp v hv
      rw [List.mem_cons, not_or] at hv
      exact i1.pend p hp v hv.2 (Or.inl hv.1)
    · intro t ht v hv
      rcases List.mem_cons.1 hv with rfl | hv
      · by_contra hne
        obtain ⟨p, _, hp, _⟩ := i1.rnd t ht hne
        simp at hp
      · exact i1.dn t ht v hv

theorem subRounds_ok {h : PyDict (HV V ℝ) ℝ} (hwf : WF h) {fixed : PyDict V ℝ}
    {rounds : List (V × List (HV V ℝ))} {done : List V} (hnd : (rounds.map (·.1)).Nodup)
    (hdis : ∀ v ∈ rounds.map (·.1), v ∉ done)
    (hperm : ∀ r ∈ rounds, (locs h r.1).Perm r.2) {s s' : SubState V ℝ} (inv : SubInv h done s)
    (hs : rounds.foldlM (subRound fixed) s = .ok s') :
    (∃ done', SubInv h done' s' ∧ ∀ v ∈ rounds.map (·.1), v ∈ done') ∧
      ∀ pt : V → ℝ, (∀ v c, fixed.get? v = some c → pt v = c) → termsVal pt s'.cp = termsVal pt s.cp := by
  suffices hsuf : (∃ done', SubInv h done' s' ∧ (∀ v ∈ rounds.map (·.1), v ∈ done') ∧ (∀ v ∈ done, v ∈ done')) ∧
      ∀ pt : V → ℝ, (∀ v c, fixed.get? v = some c → pt v = c) → termsVal pt s'.cp = termsVal pt s.cp by
    obtain ⟨⟨d, h1, h2, _⟩, h3⟩ := hsuf
    exact ⟨⟨d, h1, h2⟩, h3⟩
  induction rounds generalizing s done with
  | nil => cases hs; exact ⟨⟨done, inv, by simp, fun _ h => h⟩, fun _ _ => rfl⟩
  | cons r rounds ih =>
    rw [List.foldlM_cons] at hs
    obtain ⟨s1, h1, h2⟩ := except_bind_ok hs
    rw [List.map_cons, List.nodup_cons] at hnd
    obtain ⟨i1, c, hc, v1⟩ := subRound_ok hwf (hperm r List.mem_cons_self) inv h1
    obtain ⟨⟨d, i2, k2, k3⟩, v2⟩ := ih hnd.2
      (by
        intro v hv
        rw [List.mem_cons, not_or]
        exact ⟨fun hvr => hnd.1 (hvr ▸ hv), hdis v (by simp only [List.map_cons]; exact List.mem_cons_of_mem _ hv)⟩)
      (fun q hq => hperm q (List.mem_cons_of_mem _ hq)) i1 h2
    refine ⟨⟨d, i2, ?_, ?_⟩, ?_⟩
    · intro v hv
      rw [List.map_cons] at hv
      rcases List.mem_cons.1 hv with rfl | hv
      · exact k3 _ List.mem_cons_self
      · exact k2 v hv
    · intro v hv; exact k3 v (List.mem_cons_of_mem _ hv)
    · intro pt hpt; rw [v2 pt hpt, v1 pt (hpt _ _ hc)]

/-! ### `varlocs` -/

theorem foldl_vk_nodup (P : V → Bool) (l acc : List V) (h : acc.Nodup) :
    (l.foldl (fun vs v => if P v && !vs.contains v then vs ++ [v] else vs) acc).Nodup ∧
    ∀ v, v ∈ l.foldl (fun vs v => if P v && !vs.contains v then vs ++ [v] else vs) acc ↔
      v ∈ acc ∨ (v ∈ l ∧ P v = true) := by
  induction l generalizing acc with
  | nil => simpa using h
  | cons a l ih =>
    rw [List.foldl_cons]
    by_cases hc : (P a && !acc.contains a) = true
    · rw [if_pos hc]
      simp only [Bool.and_eq_true, Bool.not_eq_true', List.contains_eq_mem, decide_eq_false_iff_not] at hc
      have h1 : (acc ++ [a]).Nodup := by
        rw [List.nodup_append]
        refine ⟨h, by simp, ?_⟩
        intro x hx y hy hxy
        simp at hy; subst hy; subst hxy; exact hc.2 hx
      obtain ⟨i1, i2⟩ := ih (acc ++ [a]) h1
      refine ⟨i1, fun v => ?_⟩
      rw [i2 v, List.mem_append, List.mem_singleton, List.mem_cons]
      constructor
      · rintro ((h | rfl) | ⟨h, h'⟩)
        · exact Or.inl h
        · exact Or.inr ⟨Or.inl rfl, hc.1⟩
        · exact Or.inr ⟨Or.inr h, h'⟩
      · rintro (h | ⟨rfl | h, h'⟩)
        · exact Or.inl (Or.inl h)
        · exact Or.inl (Or.inr rfl)
        · exact Or.inr ⟨h, h'⟩
    · rw [if_neg hc]
      obtain ⟨i1, i2⟩ := ih acc h
      refine ⟨i1, fun v => ?_⟩
      rw [i2 v, List.mem_cons]
      constructor
      · rintro (h | ⟨h, h'⟩)
        · exact Or.inl h
        · exact Or.inr ⟨Or.inr h, h'⟩
      · rintro (h | ⟨rfl | h, h'⟩)
        · exact Or.inl h
        · left
          simp only [Bool.and_eq_true, Bool.not_eq_true', List.contains_eq_mem, decide_eq_false_iff_not, not_and,
            not_not] at hc
          exact hc h'
        · exact Or.inr ⟨h, h'⟩

theorem mem_varlocKeys {h : PyDict (HV V ℝ) ℝ} {fixed : PyDict V ℝ} {v : V} :
    v ∈ varlocKeys h fixed ↔ (∃ t ∈ h, t.1.get? v ≠ none) ∧ fixed.contains v = true := by
  unfold varlocKeys
  rw [(foldl_vk_nodup (fun v => fixed.contains v) _ [] (by simp)).2]
  simp only [List.not_mem_nil, false_or, List.mem_flatMap]
  constructor
  · rintro ⟨⟨t, ht, hv⟩, hf⟩
    refine ⟨⟨t, ht, ?_⟩, hf⟩
    obtain ⟨p, hp, hpv⟩ := List.mem_map.1 hv
    intro hn
    unfold HV.get? at hn
    rw [get?_eq_none_iff] at hn
    have := hn p hp
    rw [hpv] at this; simp at this
  · rintro ⟨⟨t, ht, hv⟩, hf⟩
    refine ⟨⟨t, ht, ?_⟩, hf⟩
    obtain ⟨x, hx⟩ := Option.ne_none_iff_exists'.1 hv
    obtain ⟨k, hk, hkv⟩ := exists_mem_of_get? hx
    exact List.mem_map.2 ⟨_, hk, eq_of_beq hkv⟩

theorem setOrder_facts {h : PyDict (HV V ℝ) ℝ} {fixed : PyDict V ℝ} {rounds : List (V × List (HV V ℝ))}
    (ho : SetOrder (varlocs h fixed) rounds) :
    (rounds.map (·.1)) = varlocKeys h fixed ∧ (rounds.map (·.1)).Nodup ∧ ∀ r ∈ rounds, (locs h r.1).Perm r.2 := by
  have hkeys : rounds.map (·.1) = varlocKeys h fixed := by
    have : ∀ (vl rs : List (V × List (HV V ℝ))), SetOrder vl rs → rs.map (·.1) = vl.map (·.1) := by
      intro vl rs h
      induction h with
      | nil => rfl
      | cons h1 _ ih => simp [h1.1, ih]
    rw [this _ _ ho]
    unfold varlocs
    rw [List.map_map]
    exact List.map_id _
  refine ⟨hkeys, ?_, ?_⟩
  · rw [hkeys]
    exact (foldl_vk_nodup (fun v => fixed.contains v) _ [] (by simp)).1
  · have : ∀ (vl rs : List (V × List (HV V ℝ))), SetOrder vl rs → (∀ a ∈ vl, a.2 = locs h a.1) →
        ∀ r ∈ rs, (locs h r.1).Perm r.2 := by
      intro vl rs hso
      induction hso with
      | nil => intro _ r hr; simp at hr
      | cons h1 _ ih =>
        intro hall r hr
        rcases List.mem_cons.1 hr with rfl | hr
        · have h2 := hall _ List.mem_cons_self
          rw [← h1.1, ← h2]; exact h1.2
        · exact ih (fun a ha => hall a (List.mem_cons_of_mem _ ha)) r hr
    refine this _ _ ho ?_
    intro a ha
    unfold varlocs at ha
    obtain ⟨v, _, rfl⟩ := List.mem_map.1 ha
    rfl

theorem subInit_eq {h : PyDict (HV V ℝ) ℝ} (hwf : WF h) :
    subInit h = ⟨h, h.map (fun t => (t.1, t.1)), h, []⟩ := by
  unfold subInit
  have h1 : h.foldl (fun cp t => PyDict.set cp t.1 t.2) [] = h := by
    have := foldl_set_eq (d := []) (l := h) (by simpa using hwf)
    simpa using this
  have h2 : h.foldl (fun m t => PyDict.set m t.1 t.1) [] = h.map (fun t => (t.1, t.1)) := by
    have hw : WF (([] : PyDict (HV V ℝ) (HV V ℝ)) ++ h.map (fun t => (t.1, t.1))) := by
      simp only [List.nil_append, WF]
      rw [List.pairwise_map]; exact hwf
    have := foldl_set_eq hw
    rw [List.foldl_map] at this
    simpa using this
  rw [h1, h2]

theorem subInv_init {h : PyDict (HV V ℝ) ℝ} (hc : TermsTidy h) (hne : h ≠ []) :
    SubInv h [] (⟨h, h.map (fun t => (t.1, t.1)), h, []⟩ : SubState V ℝ) := by
  obtain ⟨h1, h3⟩ := hc
  refine ⟨⟨h1, fun t ht => ((expCanonical_iff _).1 (h3 t ht)).1, hne, Or.inl, ?_, ?_, ?_, ?_⟩, ?_, ?_⟩
  · simp
  · intro p hp
    obtain ⟨t, ht, rfl⟩ := List.mem_map.1 hp
    exact ((expCanonical_iff _).1 (h3 t ht)).1
  · intro p hp v x hx
    obtain ⟨t, ht, rfl⟩ := List.mem_map.1 hp
    exact hx
  · intro t ht
    right
    exact ⟨(t.1, t.1), List.mem_map.2 ⟨t, ht, rfl⟩, BEq.rfl⟩
  · intro p hp v _
    obtain ⟨t, ht, rfl⟩ := List.mem_map.1 hp
    rfl
  · intro t _ v hv; simp at hv

/-- What `NomialMap.sub` guarantees, also if there are zero coefficients. -/
theorem sub_tidy {D : Type} {h h' : NMap V ℝ D} {fixed : PyDict V ℝ} {rounds : List (V × List (HV V ℝ))}
    (hc : TermsTidy h.terms) (hne : h.terms ≠ []) (ho : SetOrder (varlocs h.terms fixed) rounds)
    (hs : h.sub fixed rounds = .ok h') :
    h'.units = h.units ∧
    (∀ pt : V → ℝ, (∀ v c, fixed.get? v = some c → pt v = c) → termsVal pt h'.terms = termsVal pt h.terms) ∧
    (∀ t ∈ h'.terms, ∀ v x, t.1.get? v = some x → fixed.get? v = none ∧ ∃ s ∈ h.terms, s.1.get? v = some x) ∧
    h'.terms ≠ [] ∧ TermsTidy h'.terms ∧ (NZ h.terms → NZ h'.terms ∨ h'.terms = [(HV.empty, 0)]) := by
  unfold NMap.sub at hs
  obtain ⟨s, h1, h2⟩ := except_bind_ok hs
  cases h2
  refine ⟨rfl, ?_⟩
  have hwf := hc.1
  unfold subState at h1
  by_cases hf : fixed.isEmpty
  · rw [if_pos hf] at h1; cases h1
    refine ⟨fun _ _ => rfl, ?_, hne, hc, Or.inl⟩
    intro t ht v x hx
    rw [List.isEmpty_iff] at hf
    exact ⟨by rw [hf]; rfl, t, ht, hx⟩
  · rw [if_neg hf, subInit_eq hwf] at h1
    obtain ⟨hk, hnd, hperm⟩ := setOrder_facts ho
    obtain ⟨⟨d, inv, hd⟩, hv⟩ := subRounds_ok hwf hnd (by simp) hperm (subInv_init hc hne) h1
    have hsrc : ∀ t ∈ s.cp, ∀ v x, t.1.get? v = some x → ∃ q ∈ h.terms, q.1.get? v = some x := by
      intro t ht v x hx
      rcases inv.wit t ht with h2 | ⟨p, hp, hpt⟩
      · unfold HV.get? at hx; rw [h2] at hx; cases hx
      · have h3 := hx
        rw [← hv_get?_congr (inv.emwf p hp) hpt] at h3
        have h4 := inv.emsub p hp _ _ h3
        have : p.1 ∈ h.terms.map (·.1) := by rw [← inv.emk]; exact List.mem_map_of_mem hp
        obtain ⟨q, hq, hqp⟩ := List.mem_map.1 this
        exact ⟨q, hq, by rw [hqp]; exact h4⟩
    refine ⟨hv, ?_, inv.ne, ?_⟩
    · intro t ht v x hx
      obtain ⟨q, hq, hqx⟩ := hsrc t ht v x hx
      refine ⟨?_, q, hq, hqx⟩
      cases hfv : fixed.get? v with
      | none => rfl
      | some c =>
        exfalso
        have : v ∈ rounds.map (·.1) := by
          rw [hk, mem_varlocKeys]
          exact ⟨⟨q, hq, by rw [hqx]; simp⟩, contains_iff.2 ⟨c, hfv⟩⟩
        have := inv.dn t ht v (hd v this)
        rw [this] at hx; cases hx
    · refine ⟨⟨inv.wf, fun t ht => ?_⟩, inv.nz⟩
      rw [expCanonical_iff]
      refine ⟨inv.kwf t ht, ?_⟩
      intro kx hkx
      obtain ⟨q, hq, hqx⟩ := hsrc t ht kx.1 kx.2 (get?_of_mem (inv.kwf t ht) hkx)
      obtain ⟨k, hk2, _⟩ := exists_mem_of_get? hqx
      exact ((expCanonical_iff _).1 (hc.2 q hq)).2 (k, kx.2) hk2

/-- What `NomialMap.sub` guarantees. -/
theorem sub_ok {D : Type} {h h' : NMap V ℝ D} {fixed : PyDict V ℝ} {rounds : List (V × List (HV V ℝ))}
    (hc : TermsCanonical h.terms) (hne : h.terms ≠ []) (ho : SetOrder (varlocs h.terms fixed) rounds)
    (hs : h.sub fixed rounds = .ok h') :
    h'.units = h.units ∧
    (∀ pt : V → ℝ, (∀ v c, fixed.get? v = some c → pt v = c) → termsVal pt h'.terms = termsVal pt h.terms) ∧
    (∀ t ∈ h'.terms, ∀ v x, t.1.get? v = some x → fixed.get? v = none ∧ ∃ s ∈ h.terms, s.1.get? v = some x) ∧
    h'.terms ≠ [] ∧ (TermsCanonical h'.terms ∨ h'.terms = [(HV.empty, 0)]) := by
  obtain ⟨h1, h2, h3⟩ := (termsCanonical_iff _).1 hc
  obtain ⟨a, b, c, d, e, f⟩ := sub_tidy ⟨h1, h3⟩ hne ho hs
  refine ⟨a, b, c, d, ?_⟩
  rcases f h2 with f | f
  · exact .inl ((termsCanonical_iff _).2 ⟨e.1, f, e.2⟩)
  · exact .inr f

/-! ### When substitution succeeds -/

theorem subinplace_total {h : PyDict (HV V ℝ) ℝ} (hwf : WF h) {done : List V} {vk : V} (hvk : vk ∉ done)
    {o : HV V ℝ} {L : List (HV V ℝ)} (ho : o ∈ h.map (·.1)) {x cval : ℝ} (hx : o.get? vk = some x)
    (hd : pwDom cval x = true) {s : SubState V ℝ} (inv : SubRInv h done vk (o :: L) s) :
    ∃ s', subinplace s o vk cval = .ok s' := by
  have hmwf : WF s.expmap := expmap_wf hwf inv.emk
  have hom : o ∈ s.expmap.map (·.1) := by rw [inv.emk]; exact ho
  obtain ⟨p, hp, hpo⟩ := List.mem_map.1 hom
  have h1 := get?_of_mem hmwf hp
  rw [hpo] at h1
  have h2 := inv.pend p hp vk hvk (Or.inr (by rw [hpo]; exact List.mem_cons_self))
  rw [hpo, hx] at h2
  unfold subinplace
  rw [h1]
  simp only
  rw [h2]
  simp only
  rw [if_pos hd]
  cases s.cp.get? p.2 with
  | some c => exact ⟨_, rfl⟩
  | none =>
    simp only
    split_ifs
    · exact ⟨_, rfl⟩
    · exact ⟨_, rfl⟩

theorem subRound_loop_total {h : PyDict (HV V ℝ) ℝ} (hwf : WF h) {done : List V} {vk : V} (hvk : vk ∉ done)
    {L : List (HV V ℝ)} {cval : ℝ}
    (hL : ∀ o ∈ L, o ∈ h.map (·.1) ∧ ∃ x, o.get? vk = some x ∧ pwDom cval x = true) (hnd : L.Nodup)
    {s : SubState V ℝ} (inv : SubRInv h done vk L s) :
    ∃ s', L.foldlM (fun s o => subinplace s o vk cval) s = .ok s' := by
  induction L generalizing s with
  | nil => exact ⟨s, rfl⟩
  | cons o L ih =>
    obtain ⟨hnd1, hnd2⟩ := List.nodup_cons.1 hnd
    obtain ⟨ho, x, hx, hd⟩ := hL o List.mem_cons_self
    obtain ⟨s1, h1⟩ := subinplace_total hwf hvk ho hx hd inv
    obtain ⟨i1, _⟩ := subRound_step hwf ho hnd1 inv h1
    obtain ⟨s2, h2⟩ := ih (fun o' ho' => hL o' (List.mem_cons_of_mem _ ho')) hnd2 i1
    refine ⟨s2, ?_⟩
    rw [List.foldlM_cons, h1]
    exact h2

theorem subRInv_start {h : PyDict (HV V ℝ) ℝ} {done : List V} {r : V × List (HV V ℝ)}
    (hperm : (locs h r.1).Perm r.2) {s : SubState V ℝ} (inv : SubInv h done s) : SubRInv h done r.1 r.2 s := by
  have hin : ∀ o, o ∈ r.2 ↔ o ∈ h.map (·.1) ∧ o.get? r.1 ≠ none := by
    intro o; rw [← hperm.mem_iff]; exact mem_locs
  refine ⟨inv.toSubCore, ?_, ?_, inv.dn⟩
  · intro p hp v hv _; exact inv.pend p hp v hv
  · intro t ht htv
    rcases inv.wit t ht with h1 | ⟨p, hp, hpt⟩
    · exfalso; apply htv; unfold HV.get?; rw [h1]; rfl
    · refine ⟨p, hp, (hin _).2 ⟨?_, ?_⟩, hpt⟩
      · rw [← inv.emk]; exact List.mem_map_of_mem hp
      · obtain ⟨x, hx⟩ := Option.ne_none_iff_exists'.1 htv
        rw [← hv_get?_congr (inv.emwf p hp) hpt] at hx
        rw [inv.emsub p hp _ _ hx]; simp

theorem subRounds_total {h : PyDict (HV V ℝ) ℝ} (hwf : WF h) {fixed : PyDict V ℝ}
    {rounds : List (V × List (HV V ℝ))} {done : List V} (hnd : (rounds.map (·.1)).Nodup)
    (hdis : ∀ v ∈ rounds.map (·.1), v ∉ done)
    (hperm : ∀ r ∈ rounds, (locs h r.1).Perm r.2)
    (hfix : ∀ r ∈ rounds, ∃ c, fixed.get? r.1 = some c ∧ ∀ t ∈ h, ∀ x, t.1.get? r.1 = some x → pwDom c x = true)
    {s : SubState V ℝ} (inv : SubInv h done s) :
    ∃ s', rounds.foldlM (subRound fixed) s = .ok s' := by
  induction rounds generalizing s done with
  | nil => exact ⟨s, rfl⟩
  | cons r rounds ih =>
    rw [List.map_cons, List.nodup_cons] at hnd
    obtain ⟨c, hc, hdom⟩ := hfix r List.mem_cons_self
    have hp := hperm r List.mem_cons_self
    have hloop := subRound_loop_total hwf (hdis r.1 (by simp)) (cval := c)
      (by
        intro o ho
        obtain ⟨h1, h2⟩ := mem_locs.1 (hp.symm.subset ho)
        obtain ⟨x, hx⟩ := Option.ne_none_iff_exists'.1 h2
        obtain ⟨t, ht, hto⟩ := List.mem_map.1 h1
        exact ⟨h1, x, hx, hdom t ht x (by rw [hto]; exact hx)⟩)
      (hp.nodup (locs_nodup hwf r.1)) (subRInv_start hp inv)
    obtain ⟨s1, h1⟩ := hloop
    have h1' : subRound fixed s r = .ok s1 := by unfold subRound; rw [hc]; exact h1
    obtain ⟨i1, _⟩ := subRound_ok hwf hp inv h1'
    obtain ⟨s2, h2⟩ := ih hnd.2
      (by
        intro v hv
        rw [List.mem_cons, not_or]
        exact ⟨fun hvr => hnd.1 (hvr ▸ hv), hdis v (by simp only [List.map_cons]; exact List.mem_cons_of_mem _ hv)⟩)
      (fun q hq => hperm q (List.mem_cons_of_mem _ hq)) (fun q hq => hfix q (List.mem_cons_of_mem _ hq)) i1
    refine ⟨s2, ?_⟩
    rw [List.foldlM_cons, h1']
    exact h2

theorem sub_total {D : Type} {h : NMap V ℝ D} {fixed : PyDict V ℝ} {rounds : List (V × List (HV V ℝ))}
    (hc : TermsCanonical h.terms) (hne : h.terms ≠ []) (ho : SetOrder (varlocs h.terms fixed) rounds)
    (hdom : ∀ v c, fixed.get? v = some c → ∀ t ∈ h.terms, ∀ x, t.1.get? v = some x → pwDom c x = true) :
    ∃ h', h.sub fixed rounds = .ok h' := by
  unfold NMap.sub subState
  have hwf := ((termsCanonical_iff _).1 hc).1
  by_cases hf : fixed.isEmpty
  · rw [if_pos hf]; exact ⟨_, rfl⟩
  · rw [if_neg hf, subInit_eq hwf]
    obtain ⟨hk, hnd, hperm⟩ := setOrder_facts ho
    obtain ⟨s', h1⟩ := subRounds_total hwf (fixed := fixed) hnd (by simp) hperm
      (by
        intro r hr
        have : r.1 ∈ varlocKeys h.terms fixed := by rw [← hk]; exact List.mem_map_of_mem hr
        obtain ⟨c, hc⟩ := contains_iff.1 (mem_varlocKeys.1 this).2
        exact ⟨c, hc, hdom _ c hc⟩)
      (subInv_init ⟨((termsCanonical_iff _).1 hc).1, ((termsCanonical_iff _).1 hc).2.2⟩ hne)
    rw [h1]; exact ⟨_, rfl⟩

end Sub
end Verif
