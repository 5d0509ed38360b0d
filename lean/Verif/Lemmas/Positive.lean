import Verif.Lemmas.Nomial

/-! Sums and products of terms with positive coefficients. -/

set_option linter.unusedSectionVars false

namespace Verif
variable {V : Type} [DecidableEq V]

theorem mem_set_pos {ts : PyDict (HV V ℝ) ℝ} (h : ∀ t ∈ ts, 0 < t.2) {k : HV V ℝ} {c : ℝ} (hc : 0 < c) : ∀ t ∈ PyDict.set ts k c, 0 < t.2 := by
  induction ts with
  | nil => simpa using hc
  | cons x ts ih =>
    rw [PyDict.set_cons]
    have h1 := h x (by simp)
    have h2 := ih (fun t ht => h t (by simp [ht]))
    split_ifs
    · intro t ht
      rcases List.mem_cons.1 ht with rfl | ht
      · exact hc
      · exact h t (by simp [ht])
    · intro t ht
      rcases List.mem_cons.1 ht with rfl | ht
      · exact h1
      · exact h2 t ht

theorem get?_pos {ts : PyDict (HV V ℝ) ℝ} (h : ∀ t ∈ ts, 0 < t.2) {k : HV V ℝ} {c : ℝ} (hg : PyDict.get? ts k = some c) : 0 < c := by
  obtain ⟨k', hk', hm⟩ := PyDict.exists_mem_of_get? hg
  exact h _ hk'

theorem dictAdd_pos {a b : PyDict (HV V ℝ) ℝ} (ha : ∀ t ∈ a, 0 < t.2) (hb : ∀ t ∈ b, 0 < t.2) : ∀ t ∈ dictAdd a b, 0 < t.2 := by
  induction b generalizing a with
  | nil => exact ha
  | cons kv b ih =>
    rw [dictAdd_cons]
    refine ih ?_ (fun t ht => hb t (by simp [ht]))
    have hkv := hb kv (by simp)
    unfold dictAddStep
    cases hg : PyDict.get? a kv.1 with
    | none => exact mem_set_pos ha hkv
    | some s =>
      have hs := get?_pos ha hg
      dsimp only
      rw [if_neg (by linarith)]
      exact mem_set_pos ha (by linarith)

theorem mulTerms_pos {a b : PyDict (HV V ℝ) ℝ} (ha : ∀ t ∈ a, 0 < t.2) (hb : ∀ t ∈ b, 0 < t.2) : ∀ t ∈ Nomial.mulTerms a b, 0 < t.2 := by
  have inner : ∀ (e : HV V ℝ) (c : ℝ), 0 < c → ∀ (b acc : PyDict (HV V ℝ) ℝ), (∀ t ∈ b, 0 < t.2) → (∀ t ∈ acc, 0 < t.2) →
      ∀ t ∈ b.foldl (Nomial.mulStep e c) acc, 0 < t.2 := by
    intro e c hc b
    induction b with
    | nil => intro acc _ h; exact h
    | cons s b ih =>
      intro acc hb hacc
      refine ih _ (fun t ht => hb t (by simp [ht])) ?_
      have hs : 0 < c * s.2 := mul_pos hc (hb s (by simp))
      have hge : 0 ≤ (PyDict.get? acc (e.add s.1)).getD 0 := by
        cases hg : PyDict.get? acc (e.add s.1) with
        | none => simp
        | some x => exact (get?_pos hacc hg).le
      unfold Nomial.mulStep
      dsimp only
      rw [if_pos (by intro h; linarith)]
      exact mem_set_pos hacc (by linarith)
  have outer : ∀ (a acc : PyDict (HV V ℝ) ℝ), (∀ t ∈ a, 0 < t.2) → (∀ t ∈ acc, 0 < t.2) →
      ∀ t ∈ a.foldl (fun acc s => b.foldl (Nomial.mulStep s.1 s.2) acc) acc, 0 < t.2 := by
    intro a
    induction a with
    | nil => intro acc _ h; exact h
    | cons s a ih => exact fun acc ha hacc => ih _ (fun t ht => ha t (by simp [ht])) (inner _ _ (ha s (by simp)) b acc hb hacc)
  exact outer a [] ha (by simp)

end Verif
