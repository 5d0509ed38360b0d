import Verif.Spec.Bounds
import Verif.Lemmas.GP

/-! # Lemmas about missing bounds -/

set_option linter.unusedSectionVars false

namespace Verif
namespace GP
open PyDict
variable {V K : Type} [DecidableEq V] [Field K] [LinearOrder K]

/-- What a bound depends on in an equality. -/
def Dep (e : List (V × K)) (v : V) (x : K) (s : Side) (b : Bd V) : Prop :=
  ∃ y, (b.1, y) ∈ e ∧ b.1 ≠ v ∧ b.2 = (if (0 < y ↔ 0 < x) then s.flip else s)

/-- What holds of `missingbounds` and `meq_bounds` at all times. -/
structure BInv (S Bnd : Bd V → Prop) (m : List (Bd V)) (q : Meq V) : Prop where
  sub : ∀ b ∈ m, S b
  nodup : m.Nodup
  wf : WF q
  sound : ∀ b, S b → b ∉ m → Bnd b
  cond : ∀ b cs c, q.get? b = some cs → c ∈ cs → (∀ b' ∈ c, Bnd b') → Bnd b
  condS : ∀ b cs c, q.get? b = some cs → c ∈ cs → ∀ b' ∈ c, S b'
  keyS : ∀ b cs, q.get? b = some cs → S b
  nd : ∀ b cs, q.get? b = some cs → cs.Nodup

/-- If still missing, a bound has a condition within `D`. -/
def Compl (m : List (Bd V)) (q : Meq V) (b : Bd V) (D : Bd V → Prop) : Prop :=
  b ∈ m → ∃ cs c, q.get? b = some cs ∧ c ∈ cs ∧ ∀ b' ∈ c, D b'

theorem addCond_get (q : Meq V) (b b' : Bd V) (n : List (Bd V)) :
    (addCond q b n).get? b' = if b = b' then
      some (if ((q.get? b).getD []).any (fun c => c.isPerm n) then (q.get? b).getD [] else (q.get? b).getD [] ++ [n])
      else q.get? b' := by
  unfold addCond
  rw [get?_set]
  by_cases h : b = b' <;> simp [h]

theorem addCond_mem {q : Meq V} {b : Bd V} {n : List (Bd V)} {b' : Bd V} {cs : List (List (Bd V))} {c : List (Bd V)}
    (h : (addCond q b n).get? b' = some cs) (hc : c ∈ cs) : (∃ cs', q.get? b' = some cs' ∧ c ∈ cs') ∨ (b = b' ∧ c = n) := by
  rw [addCond_get] at h
  by_cases hb : b = b'
  · subst hb
    rw [if_pos rfl, Option.some.injEq] at h
    rw [← h] at hc
    have hold : ∀ c, c ∈ (q.get? b).getD [] → ∃ cs', q.get? b = some cs' ∧ c ∈ cs' := by
      intro c hc
      cases hq : q.get? b with
      | none => rw [hq] at hc; simp at hc
      | some cs' => rw [hq] at hc; exact ⟨cs', rfl, hc⟩
    split_ifs at hc
    · exact Or.inl (hold c hc)
    · rcases List.mem_append.1 hc with hc | hc
      · exact Or.inl (hold c hc)
      · exact Or.inr ⟨rfl, by simpa using hc⟩
  · rw [if_neg hb] at h
    exact Or.inl ⟨cs, h, hc⟩

theorem needStep_inv {S Bnd : Bd V → Prop} {m : List (Bd V)} {q : Meq V} (h : BInv S Bnd m q) (ub : List (Bd V)) (b : Bd V)
    (hb : S b) (hS : ∀ b' ∈ ub.filter (fun c => c ≠ (b.1, b.2.flip)), S b')
    (hB : (∀ b' ∈ ub.filter (fun c => c ≠ (b.1, b.2.flip)), Bnd b') → Bnd b) :
    BInv S Bnd (needStep ub (m, q) b).1 (needStep ub (m, q) b).2 := by
  unfold needStep
  dsimp only
  by_cases hn : ub.filter (fun c => c ≠ (b.1, b.2.flip)) ≠ []
  · rw [if_pos hn]
    refine ⟨h.sub, h.nodup, wf_set h.wf _ _, h.sound, ?_, ?_, ?_, ?_⟩
    · intro b' cs c hg hc hall
      rcases addCond_mem hg hc with ⟨cs', h1, h2⟩ | ⟨rfl, rfl⟩
      · exact h.cond b' cs' c h1 h2 hall
      · exact hB hall
    · intro b' cs c hg hc
      rcases addCond_mem hg hc with ⟨cs', h1, h2⟩ | ⟨rfl, rfl⟩
      · exact h.condS b' cs' c h1 h2
      · exact hS
    · intro b' cs hg
      dsimp only at hg
      rw [addCond_get] at hg
      by_cases hbb : b = b'
      · rw [← hbb]; exact hb
      · rw [if_neg hbb] at hg; exact h.keyS b' cs hg
    · intro b' cs hg
      dsimp only at hg
      rw [addCond_get] at hg
      by_cases hbb : b = b'
      · rw [if_pos hbb, Option.some.injEq] at hg
        rw [← hg]
        have hold : ((q.get? b).getD []).Nodup := by
          cases hq : q.get? b with
          | none => simp
          | some cs' => exact h.nd b cs' hq
        split_ifs with hany
        · exact hold
        · rw [List.nodup_append]
          refine ⟨hold, by simp, ?_⟩
          intro c hc c' hc' hcc
          rw [List.mem_singleton] at hc'
          apply hany
          refine List.any_eq_true.2 ⟨c, hc, ?_⟩
          rw [hcc, hc', List.isPerm_iff]
      · rw [if_neg hbb] at hg; exact h.nd b' cs hg
  · rw [if_neg hn]
    refine ⟨?_, h.nodup.erase _, h.wf, ?_, h.cond, h.condS, h.keyS, h.nd⟩
    · intro b' hb'; exact h.sub b' (List.mem_of_mem_erase hb')
    · intro b' hs hnm
      by_cases hbb : b' = b
      · rw [hbb]
        apply hB
        intro b'' hm
        rw [not_not.1 hn] at hm
        simp at hm
      · exact h.sound b' hs (fun hm => hnm ((List.mem_erase_of_ne hbb).2 hm))

theorem needStep_compl {m : List (Bd V)} {q : Meq V} (ub : List (Bd V)) (b b0 : Bd V) (D : Bd V → Prop)
    (h : Compl m q b0 D) : Compl (needStep ub (m, q) b).1 (needStep ub (m, q) b).2 b0 D := by
  unfold needStep
  dsimp only
  by_cases hn : ub.filter (fun c => c ≠ (b.1, b.2.flip)) ≠ []
  · rw [if_pos hn]
    intro hm
    obtain ⟨cs, c, h1, h2, h3⟩ := h hm
    dsimp only
    rw [addCond_get]
    by_cases hb : b = b0
    · subst hb
      rw [if_pos rfl, h1, Option.getD_some]
      refine ⟨_, c, rfl, ?_, h3⟩
      split_ifs
      · exact h2
      · exact List.mem_append_left _ h2
    · rw [if_neg hb]; exact ⟨cs, c, h1, h2, h3⟩
  · rw [if_neg hn]
    intro hm
    exact h (List.mem_of_mem_erase hm)

theorem needStep_new {m : List (Bd V)} {q : Meq V} (hn : m.Nodup) (ub : List (Bd V)) (b : Bd V) (D : Bd V → Prop)
    (hD : ∀ b' ∈ ub.filter (fun c => c ≠ (b.1, b.2.flip)), D b') :
    Compl (needStep ub (m, q) b).1 (needStep ub (m, q) b).2 b D := by
  unfold needStep
  dsimp only
  by_cases hne : ub.filter (fun c => c ≠ (b.1, b.2.flip)) ≠ []
  · rw [if_pos hne]
    intro _
    dsimp only
    rw [addCond_get, if_pos rfl]
    by_cases hany : ((q.get? b).getD []).any (fun c => c.isPerm (ub.filter (fun c => c ≠ (b.1, b.2.flip)))) = true
    · rw [if_pos hany]
      obtain ⟨c, hc, hp⟩ := List.any_eq_true.1 hany
      refine ⟨_, c, rfl, hc, ?_⟩
      intro b' hb'
      exact hD b' ((List.isPerm_iff.1 hp).mem_iff.1 hb')
    · rw [if_neg hany]
      exact ⟨_, _, rfl, by simp, hD⟩
  · rw [if_neg hne]
    intro hm
    exact absurd hm (hn.not_mem_erase)

theorem needStep_pair (ub : List (Bd V)) (s : List (Bd V) × Meq V) (b : Bd V) : needStep ub s b = needStep ub (s.1, s.2) b := rfl

theorem needFold {S Bnd : Bd V → Prop} (ub : List (Bd V)) (L : List (Bd V)) (s : List (Bd V) × Meq V)
    (h : BInv S Bnd s.1 s.2) (D : Bd V → Bd V → Prop)
    (hL : ∀ b ∈ L, S b ∧ (∀ b' ∈ ub.filter (fun c => c ≠ (b.1, b.2.flip)), S b' ∧ D b b') ∧
      ((∀ b' ∈ ub.filter (fun c => c ≠ (b.1, b.2.flip)), Bnd b') → Bnd b)) :
    BInv S Bnd (L.foldl (needStep ub) s).1 (L.foldl (needStep ub) s).2 ∧
    (∀ b0 D0, Compl s.1 s.2 b0 D0 → Compl (L.foldl (needStep ub) s).1 (L.foldl (needStep ub) s).2 b0 D0) ∧
    (∀ b ∈ L, Compl (L.foldl (needStep ub) s).1 (L.foldl (needStep ub) s).2 b (D b)) := by
  induction L generalizing s with
  | nil => exact ⟨h, fun _ _ hc => hc, by simp⟩
  | cons b L ih =>
    rw [List.foldl_cons]
    obtain ⟨h1, h2, h3⟩ := hL b (by simp)
    have hi := needStep_inv h ub b h1 (fun b' hb' => (h2 b' hb').1) h3
    obtain ⟨i1, i2, i3⟩ := ih (needStep ub s b) hi (fun b' hb' => hL b' (by simp [hb']))
    refine ⟨i1, ?_, ?_⟩
    · intro b0 D0 hc
      exact i2 b0 D0 (needStep_compl ub b b0 D0 hc)
    · intro b' hb'
      rcases List.mem_cons.1 hb' with rfl | hb'
      · exact i2 _ _ (needStep_new h.nodup ub b' _ (fun c hc => (h2 c hc).2))
      · exact i3 b' hb'

theorem mem_missSet {m : List (Bd V)} {e : HV V K} {p : Bool} {s : Side} {b : Bd V} :
    b ∈ missSet m e p s ↔ b.2 = s ∧ b ∈ m ∧ ∃ x, (b.1, x) ∈ e.items ∧ decide (0 < x) = p := by
  unfold missSet
  simp only [List.mem_map, List.mem_filter, Bool.and_eq_true, decide_eq_true_eq, beq_iff_eq]
  constructor
  · rintro ⟨⟨k, x⟩, ⟨h1, h2, h3⟩, rfl⟩
    exact ⟨rfl, h2, x, h1, h3⟩
  · rintro ⟨rfl, h2, x, h1, h3⟩
    exact ⟨(b.1, x), ⟨h1, h2, h3⟩, rfl⟩

/-- What is needed for a bound: what it depends on and is missing. -/
theorem mem_need {m : List (Bd V)} {e : HV V K} (hw : WF e.items) {v : V} {x : K} (hv : (v, x) ∈ e.items) (s : Side) (b : Bd V)
    (q : Bool) (hq : q = (if s = .upper then decide (0 < x) else !decide (0 < x))) :
    b ∈ (missSet m e (!q) .upper ++ missSet m e q .lower).filter (fun c => c ≠ (v, s.flip)) ↔
      b ∈ m ∧ Dep e.items v x s b := by
  obtain ⟨w, t⟩ := b
  rw [List.mem_filter, List.mem_append, mem_missSet, mem_missSet]
  have huniq : ∀ y, (v, y) ∈ e.items → y = x := by
    intro y hy
    have h1 := get?_of_mem hw hv
    rw [get?_of_mem hw hy] at h1
    exact Option.some.inj h1
  unfold Dep
  dsimp only
  constructor
  · rintro ⟨h, hne⟩
    have hne : ¬ (w, t) = (v, s.flip) := of_decide_eq_true hne
    rcases h with ⟨rfl, hm, y, hy, hp⟩ | ⟨rfl, hm, y, hy, hp⟩
    all_goals
      refine ⟨hm, y, hy, ?_, ?_⟩
      · rintro rfl
        have := huniq y hy
        subst this
        cases s <;> by_cases h0 : 0 < y <;> simp_all [Side.flip]
      · have hiff : (0 < y ↔ 0 < x) ↔ decide (0 < y) = decide (0 < x) := decide_eq_decide.symm
        simp only [hiff]
        clear hiff huniq
        generalize decide (0 < y) = a at *
        generalize decide (0 < x) = b at *
        subst hq
        clear hm hy hne
        revert hp
        cases s <;> cases a <;> cases b <;> decide
  · rintro ⟨hm, y, hy, hwv, ht⟩
    refine ⟨?_, by simp [hwv]⟩
    cases s <;> by_cases h0 : 0 < y <;> by_cases h1 : 0 < x <;> simp_all [Side.flip] <;> exact ⟨y, hy, h0⟩

/-- One equality. -/
theorem meqStep_spec {S Bnd : Bd V → Prop} (ord : Nat → List (Bd V) → List (Bd V)) (hord : ∀ n l, (ord n l).Perm l)
    (exps : List (HV V K)) (i : Nat) (e : HV V K) (he : exps[i]? = some e) (hw : WF e.items) (s : List (Bd V) × Meq V)
    (h : BInv S Bnd s.1 s.2) (hS : ∀ v x t, (v, x) ∈ e.items → S (v, t))
    (hrule : ∀ v x t, (v, x) ∈ e.items → (∀ b, Dep e.items v x t b → Bnd b) → Bnd (v, t)) :
    BInv S Bnd (meqStep ord exps s i).1 (meqStep ord exps s i).2 ∧
    (∀ b0 D0, Compl s.1 s.2 b0 D0 → Compl (meqStep ord exps s i).1 (meqStep ord exps s i).2 b0 D0) ∧
    (∀ v x t, (v, x) ∈ e.items → Compl (meqStep ord exps s i).1 (meqStep ord exps s i).2 (v, t) (Dep e.items v x t)) := by
  set m := s.1 with hm
  -- the dependency as a function of the bound
  set D : Bd V → Bd V → Prop := fun b b' => ∀ x, (b.1, x) ∈ e.items → Dep e.items b.1 x b.2 b' with hD
  have key : ∀ (p : Bool) (t : Side) (q : Bool), q = (if t = .upper then p else !p) → ∀ n, ∀ b ∈ ord n (missSet m e p t),
      S b ∧ (∀ b' ∈ (missSet m e (!q) .upper ++ missSet m e q .lower).filter (fun c => c ≠ (b.1, b.2.flip)), S b' ∧ D b b') ∧
      ((∀ b' ∈ (missSet m e (!q) .upper ++ missSet m e q .lower).filter (fun c => c ≠ (b.1, b.2.flip)), Bnd b') → Bnd b) := by
    intro p t q hq n b hb
    rw [(hord n _).mem_iff, mem_missSet] at hb
    obtain ⟨ht, hbm, x, hx, hp⟩ := hb
    obtain ⟨v, t'⟩ := b
    dsimp only at ht hx
    subst ht
    have hq' : q = (if t' = .upper then decide (0 < x) else !decide (0 < x)) := by rw [hq, hp]
    have hn := fun b' => mem_need (m := m) hw hx t' b' q hq'
    refine ⟨h.sub _ hbm, ?_, ?_⟩
    · intro b' hb'
      obtain ⟨c1, c2⟩ := (hn b').1 hb'
      refine ⟨h.sub _ c1, ?_⟩
      intro y hy
      have h1 := get?_of_mem hw hx
      rw [get?_of_mem hw hy] at h1
      rw [Option.some.inj h1]; exact c2
    · intro hall
      apply hrule v x t' hx
      intro b' hb'
      by_cases hbm' : b' ∈ m
      · exact hall b' ((hn b').2 ⟨hbm', hb'⟩)
      · obtain ⟨y, hy, _, _⟩ := hb'
        exact h.sound b' (hS b'.1 y b'.2 hy) hbm'
  have hgo : meqStep ord exps s i =
      (ord (4 * i + 3) (missSet m e false .lower)).foldl (needStep (missSet m e false .upper ++ missSet m e true .lower))
      ((ord (4 * i + 2) (missSet m e true .lower)).foldl (needStep (missSet m e true .upper ++ missSet m e false .lower))
      ((ord (4 * i + 1) (missSet m e false .upper)).foldl (needStep (missSet m e true .upper ++ missSet m e false .lower))
      ((ord (4 * i) (missSet m e true .upper)).foldl (needStep (missSet m e false .upper ++ missSet m e true .lower)) s))) := by
    unfold meqStep; rw [he]; rfl
  rw [hgo]
  have f1 := needFold (missSet m e false .upper ++ missSet m e true .lower) (ord (4 * i) (missSet m e true .upper)) s h D
    (key true .upper true rfl (4 * i))
  set s1 := (ord (4 * i) (missSet m e true .upper)).foldl (needStep (missSet m e false .upper ++ missSet m e true .lower)) s
  have f2 := needFold (missSet m e true .upper ++ missSet m e false .lower) (ord (4 * i + 1) (missSet m e false .upper)) s1 f1.1 D
    (key false .upper false rfl (4 * i + 1))
  set s2 := (ord (4 * i + 1) (missSet m e false .upper)).foldl (needStep (missSet m e true .upper ++ missSet m e false .lower)) s1
  have f3 := needFold (missSet m e true .upper ++ missSet m e false .lower) (ord (4 * i + 2) (missSet m e true .lower)) s2 f2.1 D
    (key true .lower false rfl (4 * i + 2))
  set s3 := (ord (4 * i + 2) (missSet m e true .lower)).foldl (needStep (missSet m e true .upper ++ missSet m e false .lower)) s2
  have f4 := needFold (missSet m e false .upper ++ missSet m e true .lower) (ord (4 * i + 3) (missSet m e false .lower)) s3 f3.1 D
    (key false .lower true rfl (4 * i + 3))
  set s4 := (ord (4 * i + 3) (missSet m e false .lower)).foldl (needStep (missSet m e false .upper ++ missSet m e true .lower)) s3
  refine ⟨f4.1, ?_, ?_⟩
  · intro b0 D0 hc
    exact f4.2.1 _ _ (f3.2.1 _ _ (f2.2.1 _ _ (f1.2.1 _ _ hc)))
  · intro v x t hv
    have hweak : Compl s4.1 s4.2 (v, t) (D (v, t)) → Compl s4.1 s4.2 (v, t) (Dep e.items v x t) := by
      intro hc hmem
      obtain ⟨cs, c, h1, h2, h3⟩ := hc hmem
      exact ⟨cs, c, h1, h2, fun b' hb' => h3 b' hb' x hv⟩
    apply hweak
    by_cases hmem : (v, t) ∈ m
    · by_cases h0 : 0 < x
      · have hin : (v, t) ∈ missSet m e true t := mem_missSet.2 ⟨rfl, hmem, x, hv, by simpa using h0⟩
        cases t with
        | upper => exact f4.2.1 _ _ (f3.2.1 _ _ (f2.2.1 _ _ (f1.2.2 _ ((hord _ _).mem_iff.2 hin))))
        | lower => exact f4.2.1 _ _ (f3.2.2 _ ((hord _ _).mem_iff.2 hin))
      · have hin : (v, t) ∈ missSet m e false t := mem_missSet.2 ⟨rfl, hmem, x, hv, by simpa using h0⟩
        cases t with
        | upper => exact f4.2.1 _ _ (f3.2.1 _ _ (f2.2.2 _ ((hord _ _).mem_iff.2 hin)))
        | lower => exact f4.2.2 _ ((hord _ _).mem_iff.2 hin)
    · have h0 : Compl s.1 s.2 (v, t) (D (v, t)) := fun hh => absurd hh hmem
      exact f4.2.1 _ _ (f3.2.1 _ _ (f2.2.1 _ _ (f1.2.1 _ _ h0)))

theorem genMeq_spec {S Bnd : Bd V → Prop} (ord : Nat → List (Bd V) → List (Bd V)) (hord : ∀ n l, (ord n l).Perm l)
    (exps : List (HV V K)) (rows : List Nat) (s : List (Bd V) × Meq V) (h : BInv S Bnd s.1 s.2)
    (hrows : ∀ i ∈ rows, ∃ e, exps[i]? = some e ∧ WF e.items ∧ (∀ v x t, (v, x) ∈ e.items → S (v, t)) ∧
      (∀ v x t, (v, x) ∈ e.items → (∀ b, Dep e.items v x t b → Bnd b) → Bnd (v, t))) :
    BInv S Bnd (rows.foldl (meqStep ord exps) s).1 (rows.foldl (meqStep ord exps) s).2 ∧
    (∀ b0 D0, Compl s.1 s.2 b0 D0 → Compl (rows.foldl (meqStep ord exps) s).1 (rows.foldl (meqStep ord exps) s).2 b0 D0) ∧
    (∀ i ∈ rows, ∀ e, exps[i]? = some e → ∀ v x t, (v, x) ∈ e.items →
      Compl (rows.foldl (meqStep ord exps) s).1 (rows.foldl (meqStep ord exps) s).2 (v, t) (Dep e.items v x t)) := by
  induction rows generalizing s with
  | nil => exact ⟨h, fun _ _ hc => hc, by simp⟩
  | cons i rows ih =>
    rw [List.foldl_cons]
    obtain ⟨e, he, hw, hS, hrule⟩ := hrows i (by simp)
    obtain ⟨g1, g2, g3⟩ := meqStep_spec ord hord exps i e he hw s h hS hrule
    obtain ⟨i1, i2, i3⟩ := ih (meqStep ord exps s i) g1 (fun j hj => hrows j (by simp [hj]))
    refine ⟨i1, fun b0 D0 hc => i2 _ _ (g2 _ _ hc), ?_⟩
    intro j hj e' he' v x t hv
    rcases List.mem_cons.1 hj with rfl | hj
    · rw [he, Option.some.injEq] at he'
      subst he'
      exact i2 _ _ (g3 v x t hv)
    · exact i3 j hj e' he' v x t hv

/-! ### Rounds -/

theorem fulStep_inv {S Bnd : Bd V → Prop} (s : Ful V) (h : BInv S Bnd s.missing s.meq) (b : Bd V) :
    BInv S Bnd (fulStep s b).missing (fulStep s b).meq ∧
    (∀ b0 D0, Compl s.missing s.meq b0 D0 → Compl (fulStep s b).missing (fulStep s b).meq b0 D0) := by
  have hdel : ∀ b', (PyDict.del s.meq b).get? b' = if b = b' then none else s.meq.get? b' := by
    intro b'
    rw [get?_del h.wf]
    by_cases hb : b = b' <;> simp [hb]
  have hsub : ∀ b' cs, (PyDict.del s.meq b).get? b' = some cs → s.meq.get? b' = some cs := by
    intro b' cs hg
    rw [hdel] at hg
    split_ifs at hg
    exact hg
  by_cases h1 : b ∉ s.missing
  · have he : fulStep s b = { s with meq := s.meq.del b } := by unfold fulStep; rw [if_pos h1]
    rw [he]
    refine ⟨⟨h.sub, h.nodup, wf_del h.wf _, h.sound, ?_, ?_, ?_, ?_⟩, ?_⟩
    · intro b' cs c hg; exact h.cond b' cs c (hsub _ _ hg)
    · intro b' cs c hg; exact h.condS b' cs c (hsub _ _ hg)
    · intro b' cs hg; exact h.keyS b' cs (hsub _ _ hg)
    · intro b' cs hg; exact h.nd b' cs (hsub _ _ hg)
    · intro b0 D0 hc hm
      obtain ⟨cs, c, g1, g2, g3⟩ := hc hm
      refine ⟨cs, c, ?_, g2, g3⟩
      show (PyDict.del s.meq b).get? b0 = _
      rw [hdel, if_neg (by rintro rfl; exact h1 hm), g1]
  · by_cases h2 : ((s.meq.get? b).getD []).any (fun c => !c.any (fun b' => decide (b' ∈ s.missing))) = true
    · have he : fulStep s b = ⟨true, s.missing.erase b, s.meq.del b⟩ := by unfold fulStep; rw [if_neg h1, if_pos h2]
      rw [he]
      refine ⟨⟨?_, h.nodup.erase _, wf_del h.wf _, ?_, ?_, ?_, ?_, ?_⟩, ?_⟩
      · intro b' hb'; exact h.sub b' (List.mem_of_mem_erase hb')
      · intro b' hs hnm
        by_cases hbb : b' = b
        · subst hbb
          obtain ⟨c, hc, hcn⟩ := List.any_eq_true.1 h2
          cases hg : s.meq.get? b' with
          | none => rw [hg] at hc; simp at hc
          | some cs =>
            rw [hg] at hc
            apply h.cond b' cs c hg hc
            intro b'' hb''
            apply h.sound b'' (h.condS b' cs c hg hc b'' hb'')
            intro hin
            have : c.any (fun b' => decide (b' ∈ s.missing)) = true := List.any_eq_true.2 ⟨b'', hb'', by simpa using hin⟩
            rw [this] at hcn
            cases hcn
        · exact h.sound b' hs (fun hm => hnm ((List.mem_erase_of_ne hbb).2 hm))
      · intro b' cs c hg; exact h.cond b' cs c (hsub _ _ hg)
      · intro b' cs c hg; exact h.condS b' cs c (hsub _ _ hg)
      · intro b' cs hg; exact h.keyS b' cs (hsub _ _ hg)
      · intro b' cs hg; exact h.nd b' cs (hsub _ _ hg)
      · intro b0 D0 hc hm
        have hne : b ≠ b0 := by rintro rfl; exact absurd hm (h.nodup.not_mem_erase)
        obtain ⟨cs, c, g1, g2, g3⟩ := hc (List.mem_of_mem_erase hm)
        refine ⟨cs, c, ?_, g2, g3⟩
        show (PyDict.del s.meq b).get? b0 = _
        rw [hdel, if_neg hne, g1]
    · have he : fulStep s b = s := by unfold fulStep; rw [if_neg h1, if_neg h2]
      rw [he]
      exact ⟨h, fun _ _ hc => hc⟩

theorem fulFold_inv {S Bnd : Bd V → Prop} (l : List (Bd V)) (s : Ful V) (h : BInv S Bnd s.missing s.meq) :
    BInv S Bnd (l.foldl fulStep s).missing (l.foldl fulStep s).meq ∧
    (∀ b0 D0, Compl s.missing s.meq b0 D0 → Compl (l.foldl fulStep s).missing (l.foldl fulStep s).meq b0 D0) := by
  induction l generalizing s with
  | nil => exact ⟨h, fun _ _ hc => hc⟩
  | cons b l ih =>
    rw [List.foldl_cons]
    obtain ⟨g1, g2⟩ := fulStep_inv s h b
    obtain ⟨i1, i2⟩ := ih _ g1
    exact ⟨i1, fun b0 D0 hc => i2 _ _ (g2 _ _ hc)⟩

/-- No condition of the bound is met. -/
def Stuck (m : List (Bd V)) (b : Bd V) (cs : List (List (Bd V))) : Prop := b ∈ m ∧ ∀ c ∈ cs, ∃ b' ∈ c, b' ∈ m

/-- A round after which the loop ends has changed nothing and left only conditions that are not met. -/
theorem fulFold_dead (l : List (Bd V)) (s : Ful V) (hw : WF s.meq) (hd : (l.foldl fulStep s).alive = false) :
    s.alive = false ∧ (l.foldl fulStep s).missing = s.missing ∧
    (∀ b cs, (l.foldl fulStep s).meq.get? b = some cs → s.meq.get? b = some cs ∧ (b ∈ l → Stuck s.missing b cs)) := by
  induction l generalizing s with
  | nil => exact ⟨hd, rfl, fun b cs h => ⟨h, by simp⟩⟩
  | cons b l ih =>
    rw [List.foldl_cons] at hd ⊢
    by_cases h1 : b ∉ s.missing
    · have he : fulStep s b = { s with meq := s.meq.del b } := by unfold fulStep; rw [if_pos h1]
      rw [he] at hd ⊢
      obtain ⟨i1, i2, i3⟩ := ih _ (wf_del hw _) hd
      refine ⟨i1, i2, ?_⟩
      intro b' cs hg
      obtain ⟨j1, j2⟩ := i3 b' cs hg
      have j1 : (PyDict.del s.meq b).get? b' = some cs := j1
      rw [get?_del hw] at j1
      split_ifs at j1 with hbb
      refine ⟨j1, ?_⟩
      intro hb'
      rcases List.mem_cons.1 hb' with rfl | hb'
      · simp at hbb
      · exact j2 hb'
    · by_cases h2 : ((s.meq.get? b).getD []).any (fun c => !c.any (fun b' => decide (b' ∈ s.missing))) = true
      · have he : fulStep s b = ⟨true, s.missing.erase b, s.meq.del b⟩ := by unfold fulStep; rw [if_neg h1, if_pos h2]
        rw [he] at hd
        obtain ⟨i1, _, _⟩ := ih _ (wf_del hw _) hd
        cases i1
      · have he : fulStep s b = s := by unfold fulStep; rw [if_neg h1, if_neg h2]
        rw [he] at hd ⊢
        obtain ⟨i1, i2, i3⟩ := ih _ hw hd
        refine ⟨i1, i2, ?_⟩
        intro b' cs hg
        obtain ⟨j1, j2⟩ := i3 b' cs hg
        refine ⟨j1, ?_⟩
        intro hb'
        rcases List.mem_cons.1 hb' with rfl | hb'
        · refine ⟨not_not.1 h1, ?_⟩
          intro c hc
          rw [j1, Option.getD_some] at h2
          by_contra hno
          apply h2
          refine List.any_eq_true.2 ⟨c, hc, ?_⟩
          rw [Bool.not_eq_true', ← Bool.not_eq_true]
          intro hh
          obtain ⟨b'', k1, k2⟩ := List.any_eq_true.1 hh
          exact hno ⟨b'', k1, by simpa using k2⟩
        · exact j2 hb'

theorem fulLoop_spec {S Bnd : Bd V → Prop} (ord : Nat → List (Bd V) → List (Bd V)) (hord : ∀ n l, (ord n l).Perm l)
    (n : Nat) (m : List (Bd V)) (q : Meq V) (h : BInv S Bnd m q) :
    BInv S Bnd (fulLoop ord n m q).1 (fulLoop ord n m q).2 ∧
    (∀ b0 D0, Compl m q b0 D0 → Compl (fulLoop ord n m q).1 (fulLoop ord n m q).2 b0 D0) ∧
    (∀ b cs, (fulLoop ord n m q).2.get? b = some cs → Stuck (fulLoop ord n m q).1 b cs) := by
  induction hl : m.length using Nat.strong_induction_on generalizing n m q with
  | _ k ih =>
    obtain ⟨g1, g2⟩ := fulFold_inv (ord n (q.map (·.1))) ⟨false, m, q⟩ h
    rw [fulLoop]
    by_cases ha : (fulRound ord n m q).alive = true
    · rw [dif_pos ha]
      have hlt : (fulRound ord n m q).missing.length < m.length :=
        (fulStep_alive _ ⟨false, m, q⟩ m.length (le_refl _) (by simp)).2 ha
      obtain ⟨i1, i2, i3⟩ := ih _ (hl ▸ hlt) (n + 1) _ _ g1 rfl
      exact ⟨i1, fun b0 D0 hc => i2 _ _ (g2 _ _ hc), i3⟩
    · rw [dif_neg ha]
      refine ⟨g1, g2, ?_⟩
      intro b cs hg
      obtain ⟨_, d2, d3⟩ := fulFold_dead (ord n (q.map (·.1))) ⟨false, m, q⟩ h.wf (by simpa [fulRound] using ha)
      obtain ⟨e1, e2⟩ := d3 b cs hg
      have : b ∈ ord n (q.map (·.1)) := by
        rw [(hord n _).mem_iff]
        obtain ⟨k', hk, hk'⟩ := exists_mem_of_get? e1
        have : k' = b := by simpa using hk'
        subst this
        exact List.mem_map.2 ⟨_, hk, rfl⟩
      have hs := e2 this
      show Stuck (List.foldl fulStep ⟨false, m, q⟩ (ord n (q.map (·.1)))).missing b cs
      rw [d2]; exact hs

/-! ### Hints -/

/-- The shortened conditions are conditions restricted to what is missing, and every condition contains one of them. -/
theorem hintFold (m : List (Bd V)) (orig : List (List (Bd V))) (hne : ∀ c ∈ orig, ∃ b ∈ c, b ∈ m) (R : List (List (Bd V)))
    (hR : R.Nodup) (hRo : ∀ c ∈ R, c ∈ orig) (C : List (List (Bd V))) (hC : C.Nodup) (hRC : ∀ c ∈ R, c ∈ C)
    (P : List (Bd V) → Prop) (hPo : ∀ c, P c → c ∈ orig)
    (h1 : ∀ A ∈ C, A ∈ R ∨ ∃ c, P c ∧ A = c.filter (fun b => decide (b ∈ m)))
    (h2 : ∀ c, P c → ∃ A ∈ C, ∀ b ∈ A, b ∈ c ∧ b ∈ m) :
    (∀ A ∈ R.foldl (hintStep m) C, ∃ c ∈ orig, A = c.filter (fun b => decide (b ∈ m))) ∧
    (∀ c, P c ∨ c ∈ R → ∃ A ∈ R.foldl (hintStep m) C, ∀ b ∈ A, b ∈ c ∧ b ∈ m) := by
  induction R generalizing C P with
  | nil =>
    refine ⟨?_, ?_⟩
    · intro A hA
      rcases h1 A hA with h | ⟨c, hc, rfl⟩
      · simp at h
      · exact ⟨c, hPo c hc, rfl⟩
    · intro c hc
      rcases hc with hc | hc
      · exact h2 c hc
      · simp at hc
  | cons c R ih =>
    rw [List.foldl_cons]
    obtain ⟨hcR, hR⟩ := List.nodup_cons.1 hR
    set new := c.filter (fun b => decide (b ∈ m)) with hnew
    have hnn : new ≠ [] := by
      obtain ⟨b, hb, hm⟩ := hne c (hRo c (by simp))
      intro h0
      have : b ∈ new := List.mem_filter.2 ⟨hb, by simpa using hm⟩
      rw [h0] at this; simp at this
    have hstep : hintStep m C c =
        if (C.erase c).any (fun c' => c'.all (fun b => decide (b ∈ new))) = true then C.erase c else C.erase c ++ [new] := by
      show (if new ≠ [] ∧ ¬ _ then _ else _) = _
      by_cases ha : (C.erase c).any (fun c' => c'.all (fun b => decide (b ∈ new))) = true
      · rw [if_pos ha, if_neg (fun h => h.2 ha)]
      · rw [if_neg ha, if_pos ⟨hnn, ha⟩]
    have hkeep : ∀ A ∈ C, A ≠ c → A ∈ hintStep m C c := by
      intro A hA hAc
      have : A ∈ C.erase c := (List.mem_erase_of_ne hAc).2 hA
      rw [hstep]; split_ifs
      · exact this
      · exact List.mem_append_left _ this
    have hcover : ∃ A ∈ hintStep m C c, ∀ b ∈ A, b ∈ new := by
      rw [hstep]
      split_ifs with ha
      · obtain ⟨c', hc', hall⟩ := List.any_eq_true.1 ha
        refine ⟨c', hc', ?_⟩
        intro b hb
        have := List.all_eq_true.1 hall b hb
        simpa using this
      · exact ⟨new, by simp, fun b hb => hb⟩
    have hnewsub : ∀ b ∈ new, b ∈ c ∧ b ∈ m := by
      intro b hb
      obtain ⟨k1, k2⟩ := List.mem_filter.1 hb
      exact ⟨k1, by simpa using k2⟩
    have hres := ih hR (fun c' hc' => hRo c' (by simp [hc'])) (hintStep m C c) (by
      rw [hstep]
      split_ifs with ha
      · exact hC.erase _
      · rw [List.nodup_append]
        refine ⟨hC.erase _, by simp, ?_⟩
        intro A hA A' hA' hAA
        rw [List.mem_singleton] at hA'
        apply ha
        refine List.any_eq_true.2 ⟨A, hA, ?_⟩
        rw [hAA, hA']
        exact List.all_eq_true.2 (fun b hb => by simpa using hb))
      (by
        intro c' hc'
        exact hkeep c' (hRC c' (by simp [hc'])) (by rintro rfl; exact hcR hc'))
      (fun c' => P c' ∨ c' = c) (by
        rintro c' (h | rfl)
        · exact hPo c' h
        · exact hRo c' (by simp))
      (by
        intro A hA
        have hA' : A ∈ C.erase c ∨ A = new := by
          rw [hstep] at hA
          split_ifs at hA
          · exact Or.inl hA
          · rcases List.mem_append.1 hA with h | h
            · exact Or.inl h
            · exact Or.inr (by simpa using h)
        rcases hA' with hA' | rfl
        · have hne' : A ≠ c := by rintro rfl; exact absurd hA' hC.not_mem_erase
          rcases h1 A (List.mem_of_mem_erase hA') with h | ⟨c', hc', rfl⟩
          · rcases List.mem_cons.1 h with h | h
            · exact absurd h hne'
            · exact Or.inl h
          · exact Or.inr ⟨c', Or.inl hc', rfl⟩
        · exact Or.inr ⟨c, Or.inr rfl, rfl⟩)
      (by
        rintro c' (hc' | rfl)
        · obtain ⟨A, hA, hsub⟩ := h2 c' hc'
          by_cases hAc : A = c
          · obtain ⟨A', hA', hsub'⟩ := hcover
            refine ⟨A', hA', ?_⟩
            intro b hb
            apply hsub
            rw [hAc]
            exact (hnewsub b (hsub' b hb)).1
          · exact ⟨A, hkeep A hA hAc, hsub⟩
        · obtain ⟨A', hA', hsub'⟩ := hcover
          exact ⟨A', hA', fun b hb => hnewsub b (hsub' b hb)⟩)
    refine ⟨hres.1, ?_⟩
    intro c' hc'
    apply hres.2
    rcases hc' with h | h
    · exact Or.inl (Or.inl h)
    · rcases List.mem_cons.1 h with h | h
      · exact Or.inl (Or.inr h)
      · exact Or.inr h

theorem hints_get (ordc : List (List (Bd V)) → List (List (Bd V))) (m : List (Bd V)) (q : Meq V) (hw : WF q) (b : Bd V) :
    (hints ordc m q).get? b = match q.get? b with
      | some cs => some (some ((ordc cs).foldl (hintStep m) cs))
      | none => if b ∈ m then some none else none := by
  have h0 : ∀ (m : List (Bd V)), PyDict.get? (m.map (fun b => (b, (none : Option (List (List (Bd V))))))) b
      = if b ∈ m then some none else none := by
    intro m
    induction m with
    | nil => rfl
    | cons a m ih =>
      rw [List.map_cons, get?_cons, ih]
      by_cases hab : a = b
      · simp [hab]
      · have : (a == b) = false := by simpa using hab
        rw [this]
        simp [Ne.symm hab]
  have hf : ∀ (q : Meq V) (out : PyDict (Bd V) (Option (List (List (Bd V))))), WF q →
      (q.foldl (fun out bc => out.set bc.1 (some ((ordc bc.2).foldl (hintStep m) bc.2))) out).get? b = match q.get? b with
        | some cs => some (some ((ordc cs).foldl (hintStep m) cs))
        | none => out.get? b := by
    intro q
    induction q with
    | nil => intro out _; rfl
    | cons kc q ih =>
      intro out hw
      obtain ⟨k, c⟩ := kc
      rw [wf_cons] at hw
      rw [List.foldl_cons, ih _ hw.2, get?_cons]
      by_cases hkb : k = b
      · subst hkb
        have hnone : PyDict.get? q k = none := by
          rw [get?_eq_none_iff]
          intro p hp
          have := hw.1 p hp
          simp only [beq_eq_false_iff_ne, ne_eq] at this ⊢
          exact fun h => this h.symm
        rw [hnone]
        simp [get?_set]
      · have hkb' : (k == b) = false := by simpa using hkb
        rw [hkb']
        simp only [Bool.false_eq_true, if_false]
        cases hq : PyDict.get? q b with
        | some cs => rfl
        | none =>
          simp only
          rw [get?_set, hkb']; rfl
  unfold hints
  rw [hf q _ hw, h0]

end GP
end Verif
